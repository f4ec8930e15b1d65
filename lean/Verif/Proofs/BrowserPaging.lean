import Verif.Browser.Paging
import Verif.Proofs.BrowserHistory

/-
A `PagingFile` keeps what was appended to it.
-/

set_option linter.unusedVariables false

namespace Radix.Browser.Paging
open Radix.Browser

/-- What a call leaves: `R` if it returns `Ok`, `E` if it returns `Err`. Nothing is said if it does not return. -/
def Tri {α : Type} (Q : Inner → Prop) (x : P α) (R : α → Inner → Prop) (E : Inner → Prop) : Prop :=
  ∀ w, Q w → match x w with
    | (.ok a, w') => R a w'
    | (.err, w') => E w'
    | _ => True

theorem Tri.bind {α β : Type} {Q : Inner → Prop} {x : P α} {S : α → Inner → Prop} {E : Inner → Prop} {f : α → P β} {R : β → Inner → Prop}
    (h1 : Tri Q x S E) (h2 : ∀ a, Tri (S a) (f a) R E) : Tri Q (x >>= f) R E := by
  intro w hw
  have h := h1 w hw
  change match (match x w with
    | (.ok a, w) => f a w
    | (.err, w) => (.err, w)
    | (.panic, w) => (.panic, w)
    | (.crash, w) => (.crash, w)) with
    | (.ok a, w') => R a w'
    | (.err, w') => E w'
    | _ => True
  revert h
  match x w with
  | (.ok a, w') => intro h; exact h2 a w' h
  | (.err, w') => intro h; exact h
  | (.panic, w') => intro h; trivial
  | (.crash, w') => intro h; trivial

theorem Tri.pure {α : Type} {Q : Inner → Prop} {a : α} {R : α → Inner → Prop} {E : Inner → Prop} (h : ∀ w, Q w → R a w) :
    Tri Q (Pure.pure a) R E := fun w hw => h w hw

theorem Tri.self {Q : Inner → Prop} {E : Inner → Prop} : Tri Q self (fun a w => a = w ∧ Q w) E := fun w hw => ⟨rfl, hw⟩

theorem Tri.update {Q : Inner → Prop} {f : Inner → Inner} {R : Unit → Inner → Prop} {E : Inner → Prop} (h : ∀ w, Q w → R () (f w)) :
    Tri Q (update f) R E := fun w hw => h w hw

theorem Tri.lift {α : Type} {Q : Inner → Prop} {x : Out α} {E : Inner → Prop} (he : x ≠ .err) :
    Tri Q (lift x) (fun a w => x = .ok a ∧ Q w) E := by
  intro w hw
  change match (x, w) with
    | (.ok a, w') => x = .ok a ∧ Q w'
    | (.err, w') => E w'
    | _ => True
  match x, he with
  | .ok a, _ => exact ⟨rfl, hw⟩
  | .err, he => exact absurd rfl he
  | .panic, _ => trivial
  | .crash, _ => trivial

theorem Tri.ensure {Q : Inner → Prop} {b : Bool} {E : Inner → Prop} (he : ∀ w, Q w → b = false → E w) :
    Tri Q (ensure b) (fun _ w => b = true ∧ Q w) E := by
  intro w hw
  cases b with
  | true => exact ⟨rfl, hw⟩
  | false => exact he w hw rfl

theorem Tri.weaken {α : Type} {Q Q' : Inner → Prop} {x : P α} {R R' : α → Inner → Prop} {E E' : Inner → Prop} (h : Tri Q x R E)
    (hq : ∀ w, Q' w → Q w) (hr : ∀ a w, R a w → R' a w) (he : ∀ w, E w → E' w) : Tri Q' x R' E' := by
  intro w hw
  have h1 := h w (hq w hw)
  revert h1
  match x w with
  | (.ok a, w') => exact hr a w'
  | (.err, w') => exact he w'
  | (.panic, w') => exact id
  | (.crash, w') => exact id

theorem Tri.panic {α : Type} {Q : Inner → Prop} {R : α → Inner → Prop} {E : Inner → Prop} : Tri Q (Paging.lift .panic) R E := fun w hw => trivial
theorem Tri.crash {α : Type} {Q : Inner → Prop} {R : α → Inner → Prop} {E : Inner → Prop} : Tri Q (Paging.lift .crash) R E := fun w hw => trivial
theorem Tri.err {α : Type} {Q : Inner → Prop} {R : α → Inner → Prop} {E : Inner → Prop} (h : ∀ w, Q w → E w) : Tri Q (Paging.lift .err) R E :=
  fun w hw => h w hw

/-! ### Arithmetic -/

theorem u64_ok {n m : Nat} (h : u64 n = .ok m) : m = n ∧ n < 2 ^ 64 := by
  unfold u64 at h
  split at h
  · cases h; exact ⟨rfl, by assumption⟩
  · cases h

theorem u64_ne (n : Nat) : u64 n ≠ .err := by
  unfold u64
  split <;> intro h <;> cases h

theorem pageNum_eq {ps : Nat} (h : 0 < ps) (o : Nat) : pageNum o ps = .ok (o / ps) := by
  unfold pageNum
  rw [if_neg (by omega)]

theorem pageRange_eq {ps : Nat} (h : 0 < ps) (o : Nat) :
    pageRange o ps = if o / ps * ps + ps < 2 ^ 64 then .ok (o / ps * ps, o / ps * ps + ps) else .panic := by
  unfold pageRange
  rw [pageNum_eq h]
  change Out.bind (u64 (o / ps * ps)) (fun start => Out.bind (u64 (start + ps)) fun fin => .ok (start, fin)) = _
  unfold u64
  by_cases h1 : o / ps * ps + ps < 2 ^ 64
  · rw [if_pos h1, if_pos (by omega)]
    change Out.bind (if _ then _ else _) _ = _
    rw [if_pos h1]; rfl
  · rw [if_neg h1]
    split
    · change Out.bind (if _ then _ else _) _ = _
      rw [if_neg h1]; rfl
    · rfl

theorem sub_div_mul (o ps : Nat) : o - o / ps * ps = o % ps := by
  have := Nat.div_add_mod o ps
  rw [Nat.mul_comm] at this
  omega

theorem within_eq {ps : Nat} (h : 0 < ps) (h2 : ps < 2 ^ 31) (o : Nat) :
    within o ps = if o / ps * ps + ps < 2 ^ 64 then .ok (o % ps) else .panic := by
  unfold within
  rw [pageRange_eq h]
  by_cases h1 : o / ps * ps + ps < 2 ^ 64
  · rw [if_pos h1, if_pos h1]
    change (if o - o / ps * ps < 2 ^ 32 then Out.ok (o - o / ps * ps) else .panic) = _
    rw [sub_div_mul]
    have := Nat.mod_lt o h
    rw [if_pos (by omega)]
  · rw [if_neg h1, if_neg h1]; rfl

/-! ### The invariant -/

/-- The shape of the state: the page size is a positive multiple of 8, and the last page is a page. -/
structure Base (w : Inner) : Prop where
  pos : 0 < w.pageSize
  dvd : 8 ∣ w.pageSize
  small : w.pageSize < 2 ^ 31
  last : w.lastPage.length = w.pageSize

/-- The bytes `r` are at offset `o` of the page. -/
def At (page : Bytes) (o : Nat) (r : Bytes) : Prop := o + r.length ≤ page.length ∧ (page.drop o).take r.length = r

/-- The bytes `r` are at offset `s` of the file, in the last page or in a page in memory. -/
def In (w : Inner) (s : Nat) (r : Bytes) : Prop :=
  s / w.pageSize * w.pageSize + w.pageSize < 2 ^ 64 ∧ 0 < r.length ∧ s % w.pageSize + r.length ≤ w.pageSize ∧
  ((s / w.pageSize = w.length / w.pageSize ∧ s % w.pageSize + r.length ≤ w.length % w.pageSize ∧ At w.lastPage (s % w.pageSize) r) ∨
   (s / w.pageSize < w.length / w.pageSize ∧ ∃ page, w.get (s / w.pageSize) = some page ∧ page.length = w.pageSize ∧ At page (s % w.pageSize) r))

/-- Nothing is lost from `w0` to `w`. -/
def Keeps (w0 w : Inner) : Prop := w.pageSize = w0.pageSize ∧ ∀ s r, In w0 s r → In w s r

theorem Keeps.refl (w : Inner) : Keeps w w := ⟨rfl, fun _ _ h => h⟩

theorem Keeps.trans {a b c : Inner} (h1 : Keeps a b) (h2 : Keeps b c) : Keeps a c :=
  ⟨h2.1.trans h1.1, fun s r h => h2.2 s r (h1.2 s r h)⟩

/-- The same state except for the file. -/
def Same (w0 w : Inner) : Prop := w.fullPages = w0.fullPages ∧ w.lastPage = w0.lastPage ∧ w.pageSize = w0.pageSize ∧ w.length = w0.length

theorem Same.refl (w : Inner) : Same w w := ⟨rfl, rfl, rfl, rfl⟩

theorem Same.base {w0 w : Inner} (h : Same w0 w) (hb : Base w0) : Base w := by
  obtain ⟨h1, h2, h3, h4⟩ := h
  exact ⟨by rw [h3]; exact hb.pos, by rw [h3]; exact hb.dvd, by rw [h3]; exact hb.small, by rw [h2, h3]; exact hb.last⟩

theorem Same.keeps {w0 w : Inner} (h : Same w0 w) : Keeps w0 w := by
  obtain ⟨h1, h2, h3, h4⟩ := h
  refine ⟨h3, fun s r hi => ?_⟩
  unfold In Inner.get at *
  rw [h1, h2, h3, h4]
  exact hi

theorem call_tri {Q : Inner → Prop} (f : List Ev → Call) {E : Inner → Prop} (w0 : Inner) (hq : ∀ w, Q w → Same w0 w) :
    Tri Q (call f) (fun _ w => Same w0 w) E := fun w hw => hq w hw

theorem fileWrite_tri (w0 : Inner) (o : Nat) (d : Bytes) : Tri (Same w0) (fileWrite o d) (fun _ => Same w0) (Same w0) := by
  unfold fileWrite
  refine Tri.bind (call_tri _ w0 fun w h => h) fun s => ?_
  match s with
  | .done (.ok ()) => exact Tri.pure fun w h => h
  | .done .err => exact Tri.err fun w h => h
  | .done .panic => exact Tri.crash
  | .done .crash => exact Tri.crash
  | .opened => exact Tri.crash
  | .num _ => exact Tri.crash
  | .bytes _ => exact Tri.crash
  | .closed => exact Tri.crash

theorem fileRead_tri (w0 : Inner) (r : Range) : Tri (Same w0) (fileRead r) (fun _ => Same w0) (Same w0) := by
  unfold fileRead
  refine Tri.bind (call_tri _ w0 fun w h => h) fun s => ?_
  match s with
  | .bytes (.ok b) => exact Tri.pure fun w h => h
  | .bytes .err => exact Tri.err fun w h => h
  | .bytes .panic => exact Tri.crash
  | .bytes .crash => exact Tri.crash
  | .opened => exact Tri.crash
  | .num _ => exact Tri.crash
  | .done _ => exact Tri.crash
  | .closed => exact Tri.crash

theorem get_insert (w : Inner) (p q : Nat) (page : Bytes) : (w.insert p page).get q = if p = q then some page else w.get q := by
  unfold Inner.insert Inner.get
  rw [List.find?_cons]
  by_cases h : p = q
  · simp [h]
  · simp [h]

theorem Tri.intro {α : Type} {Q : Inner → Prop} {x : P α} {R : α → Inner → Prop} {E : Inner → Prop} (h : ∀ w, Q w → Tri (· = w) x R E) : Tri Q x R E :=
  fun w hw => h w hw w rfl

theorem Tri.bind_self {α : Type} {w : Inner} {f : Inner → P α} {R : α → Inner → Prop} {E : Inner → Prop} (h : Tri (· = w) (f w) R E) :
    Tri (· = w) (Paging.self >>= f) R E := by
  rintro _ rfl
  exact h _ rfl

theorem Tri.bind_ok {α β : Type} {Q : Inner → Prop} {x : Out α} {a : α} {f : α → P β} {R : β → Inner → Prop} {E : Inner → Prop} (hx : x = .ok a)
    (h : Tri Q (f a) R E) : Tri Q (Paging.lift x >>= f) R E := by
  subst hx
  exact fun w hw => h w hw

theorem Tri.bind_panic {α β : Type} {Q : Inner → Prop} {x : Out α} {f : α → P β} {R : β → Inner → Prop} {E : Inner → Prop} (hx : x = .panic) :
    Tri Q (Paging.lift x >>= f) R E := by
  subst hx
  exact fun w hw => trivial

theorem Tri.bind_update {α : Type} {w : Inner} {g : Inner → Inner} {f : Unit → P α} {R : α → Inner → Prop} {E : Inner → Prop}
    (h : Tri (· = g w) (f ()) R E) : Tri (· = w) (Paging.update g >>= f) R E := by
  rintro _ rfl
  exact h _ rfl

/-- Closing the page moves it to the pages in memory. -/
def closed (w : Inner) (w' : Inner) : Prop :=
  w'.fullPages = (w.length / w.pageSize, w.lastPage) :: w.fullPages ∧ w'.lastPage = List.replicate w.pageSize 0 ∧ w'.pageSize = w.pageSize ∧
    w'.length = w.length / w.pageSize * w.pageSize + w.pageSize

theorem next_div {a ps : Nat} (h : 0 < ps) : (a * ps + ps) / ps = a + 1 := by
  rw [← Nat.succ_mul, Nat.mul_div_cancel _ h]

theorem next_mod {a ps : Nat} : (a * ps + ps) % ps = 0 := by
  rw [← Nat.succ_mul, Nat.mul_mod_left]

theorem closed_keeps {w w' : Inner} (hb : Base w) (h : closed w w') : Base w' ∧ Keeps w w' ∧ w'.length % w'.pageSize = 0 := by
  obtain ⟨h1, h2, h3, h4⟩ := h
  refine ⟨⟨by rw [h3]; exact hb.pos, by rw [h3]; exact hb.dvd, by rw [h3]; exact hb.small, by rw [h2, h3, List.length_replicate]⟩, ⟨h3, fun s r hi => ?_⟩,
    by rw [h3, h4, next_mod]⟩
  obtain ⟨a1, a2, a3, a4⟩ := hi
  unfold In
  rw [h3, h4, next_div hb.pos, next_mod]
  refine ⟨a1, a2, a3, Or.inr ?_⟩
  have hg : w'.get (s / w.pageSize) = if w.length / w.pageSize = s / w.pageSize then some w.lastPage else w.get (s / w.pageSize) := by
    have := get_insert w (w.length / w.pageSize) (s / w.pageSize) w.lastPage
    unfold Inner.get Inner.insert at *
    rw [h1]; exact this
  rcases a4 with ⟨b1, b2, b3⟩ | ⟨b1, page, b2, b3, b4⟩
  · refine ⟨by omega, w.lastPage, ?_, hb.last, b3⟩
    rw [hg, if_pos b1.symm]
  · refine ⟨by omega, page, ?_, b3, b4⟩
    rw [hg, if_neg (by omega), b2]

theorem closePage_tri (w0 : Inner) (hb : Base w0) :
    Tri (fun w => w = w0) closePage (fun _ w => closed w0 w) (Same w0) := by
  unfold closePage
  refine Tri.bind_self ?_
  refine Tri.bind_ok (pageNum_eq hb.pos _) ?_
  by_cases h : w0.length / w0.pageSize * w0.pageSize + w0.pageSize < 2 ^ 64
  · refine Tri.bind_ok (by rw [pageRange_eq hb.pos, if_pos h]) ?_
    refine Tri.bind ((fileWrite_tri w0 _ _).weaken (fun w h => h ▸ Same.refl w0) (fun _ _ h => h) fun _ h => h) fun _ => ?_
    refine Tri.intro fun w hw => ?_
    refine Tri.bind_update ?_
    dsimp only
    refine Tri.bind_ok (pageNum_eq hb.pos _) ?_
    rw [next_div hb.pos, if_pos rfl]
    refine Tri.pure ?_
    rintro _ rfl
    refine ⟨?_, ?_, hw.2.2.1, rfl⟩
    · show _ :: w.fullPages = _; rw [hw.1]
    · show List.replicate _ _ = _; rw [hb.last]
  · exact Tri.bind_panic (by rw [pageRange_eq hb.pos, if_neg h])

theorem sync_tri (w0 : Inner) (hb : Base w0) : Tri (fun w => w = w0) sync (fun _ => Same w0) (Same w0) := by
  unfold sync
  refine Tri.bind_self ?_
  refine Tri.bind_ok (pageNum_eq hb.pos _) ?_
  by_cases h : w0.length / w0.pageSize * w0.pageSize + w0.pageSize < 2 ^ 64
  · refine Tri.bind_ok (by rw [pageRange_eq hb.pos, if_pos h]) ?_
    refine Tri.bind_ok (by rw [within_eq hb.pos hb.small, if_pos h]) ?_
    rw [if_pos (by rw [hb.last]; exact Nat.le_of_lt (Nat.mod_lt _ hb.pos))]
    exact (fileWrite_tri w0 _ _).weaken (fun w h => h ▸ Same.refl w0) (fun _ _ h => h) fun _ h => h
  · exact Tri.bind_panic (by rw [pageRange_eq hb.pos, if_neg h])

/-- The next offset at which a record can begin. -/
def aligned (n : Nat) : Nat := n + (12 - (n + 8) % 8) % 8

theorem alignLength_tri (w0 : Inner) {E : Inner → Prop} : Tri (fun w => w = w0) alignLength (fun _ w => w = { w0 with length := aligned w0.length }) E := by
  unfold alignLength
  refine Tri.bind_self ?_
  by_cases h : w0.length + 4 < 2 ^ 64
  · refine Tri.bind_ok (a := w0.length + 4) (by unfold u64; rw [if_pos h]) ?_
    by_cases ha : (w0.length + 4) % 8 = 0
    · rw [if_pos (by simp [isAligned, ha])]
      refine Tri.pure ?_
      intro w hw
      have : aligned w0.length = w0.length := by unfold aligned; omega
      rw [this, hw]
    · rw [if_neg (by simp [isAligned, ha])]
      unfold alignEnd u64
      rw [if_neg (by simp [isAligned, ha])]
      split
      · refine Tri.bind_ok rfl ?_
        refine Tri.update ?_
        intro w hw
        rw [hw]
        have : w0.length + ((w0.length + 4) / 8 * 8 + 8 - w0.length - 4) = aligned w0.length := by unfold aligned; omega
        rw [this]
      · exact Tri.bind_panic rfl
  · exact Tri.bind_panic (by unfold u64; rw [if_neg h])

/-- There is room for `n` bytes and the padding in the last page, or the last page is empty. -/
def Room (w : Inner) (n : Nat) : Prop := w.length % w.pageSize + n + 8 ≤ w.pageSize ∨ w.length % w.pageSize = 0

theorem add_div_mod {a k ps : Nat} (h : 0 < ps) (hk : a % ps + k < ps) : (a + k) / ps = a / ps ∧ (a + k) % ps = a % ps + k := by
  have h1 := Nat.div_add_mod a ps
  have h2 : a + k = ps * (a / ps) + (a % ps + k) := by omega
  constructor
  · rw [h2, Nat.mul_add_div h, Nat.div_eq_of_lt hk]; rfl
  · rw [h2, Nat.mul_add_mod, Nat.mod_eq_of_lt hk]

theorem aligned_spec {w : Inner} {n : Nat} (hb : Base w) (hn : 0 < n) (hr : Room w n) : ∃ k, aligned w.length = w.length + k ∧
    (aligned w.length) / w.pageSize = w.length / w.pageSize ∧ aligned w.length % w.pageSize = w.length % w.pageSize + k ∧
    (w.length % w.pageSize + n + 8 ≤ w.pageSize ∧ k < 8 ∨ w.length % w.pageSize = 0 ∧ k = 4) := by
  rcases hr with hr | hr
  · have hk : (12 - (w.length + 8) % 8) % 8 < 8 := Nat.mod_lt _ (by omega)
    obtain ⟨h1, h2⟩ := add_div_mod hb.pos (a := w.length) (k := (12 - (w.length + 8) % 8) % 8) (by omega)
    exact ⟨_, rfl, h1, h2, Or.inl ⟨hr, hk⟩⟩
  · obtain ⟨c, hc⟩ := hb.dvd
    have hp := hb.pos
    have h8 : w.length % 8 = 0 := by
      have h1 := Nat.div_add_mod w.length w.pageSize
      have : w.length = 8 * (c * (w.length / w.pageSize)) := by
        rw [← Nat.mul_assoc, ← hc]; omega
      omega
    have hk : (12 - (w.length + 8) % 8) % 8 = 4 := by omega
    obtain ⟨h1, h2⟩ := add_div_mod hb.pos (a := w.length) (k := 4) (by omega)
    refine ⟨4, ?_, ?_, ?_, Or.inr ⟨hr, rfl⟩⟩
    all_goals unfold aligned; rw [hk]
    · exact h1
    · exact h2

theorem At.patch {page : Bytes} {o p : Nat} {r data : Bytes} (h : At page o r) (hp : o + r.length ≤ p) (hd : p + data.length ≤ page.length) :
    At (page.take p ++ data ++ page.drop (p + data.length)) o r := by
  obtain ⟨h1, h2⟩ := h
  refine ⟨by simp only [List.length_append, List.length_take, List.length_drop]; omega, ?_⟩
  rw [List.append_assoc, List.drop_append_of_le_length (by rw [List.length_take]; omega), List.take_append_of_le_length (by rw [List.length_drop, List.length_take]; omega),
    List.drop_take, List.take_take, Nat.min_eq_left (by omega), h2]

theorem At.self {page : Bytes} {p : Nat} {data : Bytes} (hd : p + data.length ≤ page.length) :
    At (page.take p ++ data ++ page.drop (p + data.length)) p data := by
  refine ⟨by simp only [List.length_append, List.length_take, List.length_drop]; omega, ?_⟩
  have h1 : (page.take p).length = p := by rw [List.length_take]; omega
  rw [List.append_assoc, List.drop_append_of_le_length (by omega), List.drop_of_length_le (by omega), List.nil_append, List.take_append_of_le_length (by omega),
    List.take_of_length_le (by omega)]

/-- Copying the data into the last page at the next offset. -/
theorem copied {w : Inner} {data : Bytes} (hb : Base w) (hn : 0 < data.length) (hr : Room w data.length) {o : Nat}
    (ho : o = aligned w.length % w.pageSize) (hfit : o + data.length ≤ w.lastPage.length)
    (h64 : aligned w.length / w.pageSize * w.pageSize + w.pageSize < 2 ^ 64) {w' : Inner}
    (hw' : w' = { w with lastPage := w.lastPage.take o ++ data ++ w.lastPage.drop (o + data.length), length := aligned w.length + data.length }) :
    Base w' ∧ Keeps w w' ∧ (data.length + 4 < w.pageSize → In w' (aligned w.length) data) := by
  obtain ⟨k, hk, h1, h2, h3⟩ := aligned_spec hb hn hr
  have hlast := hb.last
  have hpos := hb.pos
  have hp : w'.pageSize = w.pageSize := by rw [hw']
  have hl : w'.length = aligned w.length + data.length := by rw [hw']
  have hpg : w'.lastPage = w.lastPage.take o ++ data ++ w.lastPage.drop (o + data.length) := by rw [hw']
  have hget : ∀ q, w'.get q = w.get q := by intro q; rw [hw']; rfl
  refine ⟨⟨by rw [hp]; exact hb.pos, by rw [hp]; exact hb.dvd, by rw [hp]; exact hb.small, ?_⟩, ⟨hp, fun s r hi => ?_⟩, fun hfree => ?_⟩
  · rw [hp, hpg]
    simp only [List.length_append, List.length_take, List.length_drop]; omega
  · obtain ⟨a1, a2, a3, a4⟩ := hi
    unfold In
    rw [hp, hl, hpg, hget]
    refine ⟨a1, a2, a3, ?_⟩
    rcases a4 with ⟨b1, b2, b3⟩ | ⟨b1, page, b2, b3, b4⟩
    · obtain ⟨h4, h5⟩ : _ ∧ k < 8 := h3.resolve_right (by omega)
      obtain ⟨h6, h7⟩ := add_div_mod (a := aligned w.length) (k := data.length) hpos (by omega)
      rw [h6, h7]
      exact Or.inl ⟨by omega, by omega, b3.patch (by omega) hfit⟩
    · refine Or.inr ⟨?_, page, b2, b3, b4⟩
      have : aligned w.length / w.pageSize ≤ (aligned w.length + data.length) / w.pageSize := Nat.div_le_div_right (by omega)
      omega
  · have hlt : aligned w.length % w.pageSize + data.length < w.pageSize := by omega
    obtain ⟨h6, h7⟩ := add_div_mod (a := aligned w.length) (k := data.length) hpos hlt
    unfold In
    rw [hp, hl, hpg, h6, h7]
    refine ⟨h64, hn, by omega, Or.inl ⟨rfl, Nat.le_refl _, ?_⟩⟩
    rw [← ho]
    exact At.self hfit

theorem append_tri (w0 : Inner) (hb : Base w0) (data : Bytes) (hn : 0 < data.length) :
    Tri (fun w => w = w0) (append data) (fun s w => Base w ∧ Keeps w0 w ∧ (data.length + 4 < w0.pageSize → In w s data)) (Same w0) := by
  unfold append
  refine Tri.bind_self ?_
  refine Tri.bind (Tri.ensure fun w h _ => h ▸ Same.refl w0) fun _ => ?_
  refine Tri.intro fun w h => ?_
  obtain ⟨h1, rfl⟩ := h
  have h1 : data.length ≤ w.pageSize := by simpa using h1
  have hs := hb.small
  refine Tri.bind_ok (a := data.length + 8) (by unfold u64; rw [if_pos (by omega)]) ?_
  refine Tri.bind_self ?_
  by_cases h64 : w.length / w.pageSize * w.pageSize + w.pageSize < 2 ^ 64
  · refine Tri.bind_ok (a := w.length / w.pageSize * w.pageSize + w.pageSize - w.length) (by unfold remaining; rw [pageRange_eq hb.pos, if_pos h64]; rfl) ?_
    have hmod := sub_div_mul w.length w.pageSize
    have hlt := Nat.mod_lt w.length hb.pos
    have hle : w.length / w.pageSize * w.pageSize ≤ w.length := Nat.div_mul_le_self _ _
    refine Tri.bind (S := fun _ v => Base v ∧ Keeps w v ∧ Room v data.length) ?_ fun _ => ?_
    · split
      · exact (closePage_tri w hb).weaken (fun _ h => h) (fun _ v h => by
          obtain ⟨a, b, c⟩ := closed_keeps hb h
          exact ⟨a, b, Or.inr c⟩) fun _ h => h
      · refine Tri.pure ?_
        rintro _ rfl
        exact ⟨hb, Keeps.refl _, Or.inl (by omega)⟩
    · refine Tri.intro fun v hv => ?_
      obtain ⟨hv1, hv2, hv3⟩ := hv
      refine Tri.bind (alignLength_tri v) fun _ => ?_
      · refine Tri.bind_self ?_
        dsimp only
        by_cases h64' : aligned v.length / v.pageSize * v.pageSize + v.pageSize < 2 ^ 64
        · refine Tri.bind_ok (by rw [within_eq hv1.pos hv1.small, if_pos h64']) ?_
          split
          · rename_i hfit
            have hll : aligned v.length + data.length < 2 ^ 64 := by
              have := sub_div_mul (aligned v.length) v.pageSize
              have := Nat.mod_lt (aligned v.length) hv1.pos
              have := hv1.last
              have := Nat.div_mul_le_self (aligned v.length) v.pageSize
              omega
            refine Tri.bind_ok (a := aligned v.length + data.length) (by unfold u64; rw [if_pos hll]) ?_
            refine Tri.bind_update ?_
            refine Tri.pure ?_
            intro w' hw'
            obtain ⟨a, b, c⟩ := copied hv1 hn hv3 rfl hfit h64' hw'
            exact ⟨a, hv2.trans b, fun h => c (by rw [hv2.1]; exact h)⟩
          · exact Tri.panic
        · exact Tri.bind_panic (by rw [within_eq hv1.pos hv1.small, if_neg h64'])
  · exact Tri.bind_panic (by unfold remaining; rw [pageRange_eq hb.pos, if_neg h64]; rfl)

theorem appendPrefixed_tri (w0 : Inner) (hb : Base w0) (data : Bytes) :
    Tri (fun w => w = w0) (appendPrefixed data) (fun s w => Base w ∧ Keeps w0 w ∧ data.length < 2 ^ 32 ∧
      (data.length + 8 < w0.pageSize → In w s (toBE 4 data.length ++ data))) (Same w0) := by
  unfold appendPrefixed
  split
  · rename_i h
    have hl : (toBE 4 data.length ++ data).length = data.length + 4 := by rw [List.length_append, toBE_length]; omega
    refine (append_tri w0 hb (toBE 4 data.length ++ data) (by omega)).weaken (fun _ h => h) (fun s w h' => ?_) fun _ h => h
    exact ⟨h'.1, h'.2.1, h, fun hs => h'.2.2 (by omega)⟩
  · exact Tri.panic

theorem insert_keeps {w : Inner} {p : Nat} (page : Bytes) (hn : w.get p = none) (hb : Base w) : Base (w.insert p page) ∧ Keeps w (w.insert p page) := by
  refine ⟨⟨hb.pos, hb.dvd, hb.small, hb.last⟩, rfl, fun s r hi => ?_⟩
  obtain ⟨a1, a2, a3, a4⟩ := hi
  refine ⟨a1, a2, a3, ?_⟩
  rcases a4 with a4 | ⟨b1, pg, b2, b3, b4⟩
  · exact Or.inl a4
  · refine Or.inr ⟨b1, pg, ?_, b3, b4⟩
    rw [get_insert]
    split
    · rename_i hp
      have b2 : w.get (s / w.pageSize) = some pg := b2
      rw [hp] at hn
      have hn : w.get (s / w.pageSize) = none := hn
      rw [hn] at b2; cases b2
    · exact b2

theorem loadPage_tri (w0 : Inner) (hb : Base w0) (start : Nat) :
    Tri (fun w => w = w0) (loadPage start) (fun _ w => Base w ∧ Keeps w0 w) (fun w => Base w ∧ Keeps w0 w) := by
  unfold loadPage
  refine Tri.bind_self ?_
  refine Tri.bind_ok (pageNum_eq hb.pos _) ?_
  refine Tri.bind_ok (pageNum_eq hb.pos _) ?_
  split
  · by_cases h : w0.length / w0.pageSize * w0.pageSize + w0.pageSize < 2 ^ 64
    · refine Tri.bind_ok (by rw [within_eq hb.pos hb.small, if_pos h]) ?_
      rw [if_pos (by rw [hb.last]; exact Nat.le_of_lt (Nat.mod_lt _ hb.pos))]
      exact Tri.pure fun w h => by rw [h]; exact ⟨hb, Keeps.refl _⟩
    · exact Tri.bind_panic (by rw [within_eq hb.pos hb.small, if_neg h])
  · split
    · exact Tri.pure fun w h => by rw [h]; exact ⟨hb, Keeps.refl _⟩
    · rename_i hn
      refine Tri.bind (Tri.ensure fun w h _ => by rw [h]; exact ⟨hb, Keeps.refl _⟩) fun _ => ?_
      by_cases h : start / w0.pageSize * w0.pageSize + w0.pageSize < 2 ^ 64
      · refine Tri.bind_ok (by rw [pageRange_eq hb.pos, if_pos h]) ?_
        refine Tri.bind ((fileRead_tri w0 _).weaken (fun w h => h.2 ▸ Same.refl w0) (fun _ _ h => h) fun w h => ⟨h.base hb, h.keeps⟩) fun page => ?_
        refine Tri.intro fun w hw => ?_
        refine Tri.bind_update ?_
        refine Tri.pure ?_
        intro v hv
        rw [hv]
        obtain ⟨a, b⟩ := insert_keeps (w := w) (p := start / w0.pageSize) page (by unfold Inner.get; rw [hw.1]; exact hn) (hw.base hb)
        exact ⟨a, hw.keeps.trans b⟩
      · exact Tri.bind_panic (by rw [pageRange_eq hb.pos, if_neg h])

theorem load_tri (w0 : Inner) (hb : Base w0) (start : Nat) :
    Tri (fun w => w = w0) (loadPrefixed start) (fun _ w => Base w ∧ Keeps w0 w) (fun w => Base w ∧ Keeps w0 w) := by
  unfold loadPrefixed
  refine Tri.bind_self ?_
  by_cases h : start / w0.pageSize * w0.pageSize + w0.pageSize < 2 ^ 64
  · refine Tri.bind_ok (by rw [within_eq hb.pos hb.small, if_pos h]) ?_
    refine Tri.bind (loadPage_tri w0 hb start) fun page => ?_
    refine Tri.bind (Tri.ensure fun w h _ => h) fun _ => ?_
    dsimp only
    refine Tri.bind (Tri.ensure fun w h _ => h.2) fun _ => ?_
    exact Tri.pure fun w h => h.2.2
  · exact Tri.bind_panic (by rw [within_eq hb.pos hb.small, if_neg h])

/-- Binding after a call with a known result. -/
theorem pbind_ok {α β : Type} {x : P α} {f : α → P β} {w w' : Inner} {a : α} (h : x w = (.ok a, w')) : (x >>= f) w = f a w' := by
  change (match x w with
    | (.ok a, w) => f a w
    | (.err, w) => (.err, w)
    | (.panic, w) => (.panic, w)
    | (.crash, w) => (.crash, w)) = _
  rw [h]

theorem lift_ok {α β : Type} {x : Out α} {f : α → P β} {w : Inner} {a : α} (h : x = .ok a) : (Paging.lift x >>= f) w = f a w := by
  rw [h]; exact pbind_ok rfl

theorem ensure_ok {β : Type} {b : Bool} {f : Unit → P β} {w : Inner} (h : b = true) : (Paging.ensure b >>= f) w = f () w := by
  rw [h]; exact pbind_ok rfl

/-- A page that has the record gives it. -/
theorem loadPage_in {w : Inner} {s : Nat} {r : Bytes} (hb : Base w) (hi : In w s r) :
    ∃ page, loadPage s w = (.ok page, w) ∧ At page (s % w.pageSize) r := by
  obtain ⟨a1, a2, a3, a4⟩ := hi
  unfold loadPage
  have e0 : ∀ f : Inner → P Bytes, (Paging.self >>= f) w = f w w := fun f => pbind_ok rfl
  rw [e0, lift_ok (pageNum_eq hb.pos _), lift_ok (pageNum_eq hb.pos _)]
  rcases a4 with ⟨b1, b2, b3⟩ | ⟨b1, page, b2, b3, b4⟩
  · rw [if_pos b1, lift_ok (by rw [within_eq hb.pos hb.small, if_pos (by rw [← b1]; exact a1)])]
    have := hb.last
    have := Nat.mod_lt w.length hb.pos
    rw [if_pos (by omega)]
    refine ⟨_, rfl, ?_, ?_⟩
    · rw [List.length_take]; omega
    · rw [List.drop_take, List.take_take, Nat.min_eq_left (by omega), b3.2]
  · rw [if_neg (by omega), b2]
    exact ⟨_, rfl, b4⟩

theorem load_of_page {w w' : Inner} {s : Nat} {d page : Bytes} (hb : Base w) (hd : d.length < 2 ^ 32) (h64 : s / w.pageSize * w.pageSize + w.pageSize < 2 ^ 64)
    (h1 : loadPage s w = (.ok page, w')) (ha : At page (s % w.pageSize) (toBE 4 d.length ++ d)) : loadPrefixed s w = (.ok d, w') := by
  obtain ⟨h2, h3⟩ := ha
  have hl : (toBE 4 d.length ++ d).length = d.length + 4 := by rw [List.length_append, toBE_length]; omega
  rw [hl] at h2 h3
  unfold loadPrefixed
  have e0 : ∀ f : Inner → P Bytes, (Paging.self >>= f) w = f w w := fun f => pbind_ok rfl
  rw [e0, lift_ok (by rw [within_eq hb.pos hb.small, if_pos h64]), pbind_ok h1, ensure_ok (by simp; omega)]
  have e4 : (page.drop (s % w.pageSize)).take 4 = toBE 4 d.length := by
    have := congrArg (List.take 4) h3
    rwa [List.take_take, Nat.min_eq_left (by omega), List.take_append_of_le_length (by rw [toBE_length]; omega),
      List.take_of_length_le (l := toBE 4 d.length) (by rw [toBE_length]; omega)] at this
  have e5 : ofBE (toBE 4 d.length) = d.length := ofBE_toBE_lt (by omega)
  rw [e4, e5, ensure_ok (by simp; omega)]
  have e6 : (page.drop (s % w.pageSize + 4)).take d.length = d := by
    have := congrArg (List.drop 4) h3
    rw [List.drop_take, List.drop_drop, List.drop_append_of_le_length (by rw [toBE_length]; omega), List.drop_of_length_le (l := toBE 4 d.length) (by rw [toBE_length]; omega),
      List.nil_append] at this
    exact this
  rw [e6]
  rfl

theorem load_in {w : Inner} {s : Nat} {d : Bytes} (hb : Base w) (hd : d.length < 2 ^ 32) (hi : In w s (toBE 4 d.length ++ d)) :
    loadPrefixed s w = (.ok d, w) := by
  obtain ⟨page, h1, h2⟩ := loadPage_in hb hi
  exact load_of_page hb hd hi.1 h1 h2

/-! ### Sessions -/

theorem tri_apply {α : Type} {w : Inner} {x : P α} {R : α → Inner → Prop} {E : Inner → Prop} (h : Tri (fun v => v = w) x R E) :
    (∀ a w', x w = (.ok a, w') → R a w') ∧ ∀ w', x w = (.err, w') → E w' := by
  have h := h w rfl
  constructor
  · intro a w' e; rw [e] at h; exact h
  · intro w' e; rw [e] at h; exact h

theorem pstep_keeps {w w' : Inner} {c : PCall} {r : Seen} (hb : Base w) (h : pstep w c = (r, some w')) : Base w' ∧ Keeps w w' ∧
    ∀ d id, c = .put d → r = .bytes (.ok id) → d.length + 8 < w.pageSize →
      ∃ s, id = toBE 8 s ∧ s < 2 ^ 64 ∧ d.length < 2 ^ 32 ∧ In w' s (toBE 4 d.length ++ d) := by
  cases c with
  | put data =>
    obtain ⟨h1, h2⟩ := tri_apply (appendPrefixed_tri w hb data)
    unfold pstep at h
    dsimp only at h
    split at h
    · rename_i n v e
      cases h
      obtain ⟨a, b, c, d⟩ := h1 _ _ e
      refine ⟨a, b, ?_⟩
      intro d' id hc hr hs
      cases hc; cases hr
      have hi := d hs
      refine ⟨n, rfl, ?_, c, hi⟩
      have := Nat.mod_lt n a.pos
      have := sub_div_mul n w'.pageSize
      have := hi.1
      omega
    · rename_i v e
      cases h
      have := h2 _ e
      exact ⟨this.base hb, this.keeps, by simp⟩
    · cases h
    · cases h
  | get id =>
    obtain ⟨h1, h2⟩ := tri_apply (load_tri w hb (ofBE id))
    unfold pstep at h
    dsimp only at h
    split at h
    · split at h
      · rename_i n v e
        cases h
        obtain ⟨a, b⟩ := h1 _ _ e
        exact ⟨a, b, by simp⟩
      · rename_i v e
        cases h
        obtain ⟨a, b⟩ := h2 _ e
        exact ⟨a, b, by simp⟩
      · cases h
      · cases h
    · cases h
      exact ⟨hb, Keeps.refl _, by simp⟩
  | sync =>
    obtain ⟨h1, h2⟩ := tri_apply (sync_tri w hb)
    unfold pstep at h
    dsimp only at h
    split at h
    · rename_i v e
      cases h
      have := h1 _ _ e
      exact ⟨this.base hb, this.keeps, by simp⟩
    · rename_i v e
      cases h
      have := h2 _ e
      exact ⟨this.base hb, this.keeps, by simp⟩
    · cases h
    · cases h

theorem prun_keeps : ∀ (cs : List PCall) {w w' : Inner}, Base w → prun w cs = some w' → Base w' ∧ Keeps w w' ∧
    ∀ d id, (.put d, .bytes (.ok id)) ∈ plog w cs → d.length + 8 < w.pageSize →
      ∃ s, id = toBE 8 s ∧ s < 2 ^ 64 ∧ d.length < 2 ^ 32 ∧ In w' s (toBE 4 d.length ++ d)
  | [], w, w', hb, h => by
    cases h
    exact ⟨hb, Keeps.refl _, fun d id h => absurd h (by simp [plog])⟩
  | c :: cs, w, w', hb, h => by
    unfold prun at h
    rcases e : pstep w c with ⟨r, _ | v⟩
    · rw [e] at h; cases h
    · rw [e] at h
      obtain ⟨a1, a2, a3⟩ := pstep_keeps hb e
      obtain ⟨b1, b2, b3⟩ := prun_keeps cs a1 h
      refine ⟨b1, a2.trans b2, fun d id hm hs => ?_⟩
      unfold plog at hm
      rw [e] at hm
      dsimp only at hm
      rcases List.mem_cons.1 hm with hm | hm
      · cases hm
        obtain ⟨s, c1, c2, c3, c4⟩ := a3 d id rfl rfl hs
        exact ⟨s, c1, c2, c3, b2.2 _ _ c4⟩
      · exact b3 d id hm (by rw [a2.1]; exact hs)

theorem buffer_length {r : Range} {res : Bytes} (h : buffer r = .ok res) : res.length = r.2 - r.1 := by
  unfold buffer toUsize at h
  split at h
  · change (if _ then Out.ok _ else Out.panic) = _ at h
    split at h
    · cases h
      rw [List.length_replicate]
      exact Int.toNat_natCast _
    · cases h
  · cases h

theorem read_length {a b : Nat} {w w' : File} {bs : Bytes} (h : read (a, b) w = (.ok bs, w')) : bs.length = b - a := by
  unfold read at h
  dsimp only at h
  obtain ⟨_, _, _, h⟩ := bind_inv h
  obtain ⟨_, _, _, h⟩ := bind_inv h
  obtain ⟨_, _, _, h⟩ := bind_inv h
  obtain ⟨res, w1, h1, h⟩ := bind_inv h
  obtain ⟨w2, w3, -, h⟩ := bind_inv h
  rw [fill_length _ _ _ _ _ _ h]
  have h1 := congrArg Prod.fst h1
  exact buffer_length (r := (a, b)) h1

theorem fileRead_length (w0 : Inner) (r : Range) : Tri (Same w0) (fileRead r) (fun b w => b.length = r.2 - r.1 ∧ Same w0 w) (Same w0) := by
  unfold fileRead
  refine Tri.bind (S := fun s w => (∀ b, s = .bytes (.ok b) → b.length = r.2 - r.1) ∧ Same w0 w) ?_ fun s => ?_
  · intro w hw
    refine ⟨fun b hb => ?_, hw⟩
    unfold step at hb
    dsimp only at hb
    split at hb
    · cases hb
    · rename_i ch _
      rcases e : read (r.1, r.2) ⟨w.file.cache, w.file.name, ch, w.coming.headD []⟩ with ⟨x, y⟩
      rw [e] at hb
      cases hb
      exact read_length e
  · match s with
    | .bytes (.ok b) => exact Tri.pure fun w h => ⟨h.1 b rfl, h.2⟩
    | .bytes .err => exact Tri.err fun w h => h.2
    | .bytes .panic => exact Tri.crash
    | .bytes .crash => exact Tri.crash
    | .opened => exact Tri.crash
    | .num _ => exact Tri.crash
    | .done _ => exact Tri.crash
    | .closed => exact Tri.crash

theorem fileLength_tri (w0 : Inner) : Tri (Same w0) fileLength (fun _ => Same w0) (Same w0) := by
  unfold fileLength
  refine Tri.bind (call_tri _ w0 fun w h => h) fun s => ?_
  match s with
  | .num n => exact Tri.pure fun w h => h
  | .bytes _ => exact Tri.crash
  | .opened => exact Tri.crash
  | .done _ => exact Tri.crash
  | .closed => exact Tri.crash

theorem new_tri (w0 : Inner) (h8 : 8 ∣ w0.pageSize) : Tri (fun w => w = w0) new (fun _ w => Base w ∧ w.pageSize = w0.pageSize) (fun _ => True) := by
  unfold new
  refine Tri.bind_self ?_
  refine Tri.bind ((fileLength_tri w0).weaken (fun w h => h ▸ Same.refl w0) (fun _ _ h => h) fun _ _ => trivial) fun n => ?_
  by_cases hp : w0.pageSize = 0
  · exact Tri.bind_panic (by unfold pageRange pageNum; rw [hp]; rfl)
  · have hp : 0 < w0.pageSize := by omega
    by_cases h : n / w0.pageSize * w0.pageSize + w0.pageSize < 2 ^ 64
    · refine Tri.bind_ok (by rw [pageRange_eq hp, if_pos h]) ?_
      dsimp only
      refine Tri.bind ((fileRead_length w0 _).weaken (fun _ h => h) (fun _ _ h => h) fun _ _ => trivial) fun b => ?_
      dsimp only
      refine Tri.intro fun w hw => ?_
      obtain ⟨h1, h2⟩ := hw
      have h3 := sub_div_mul n w0.pageSize
      have h4 := Nat.mod_lt n hp
      have h5 := Nat.div_mul_le_self n w0.pageSize
      split
      · rename_i hlt
        refine Tri.update ?_
        intro v hv
        rw [hv]
        have hps : w.pageSize = w0.pageSize := h2.2.2.1
        refine ⟨⟨by show 0 < w.pageSize; omega, by show 8 ∣ w.pageSize; rw [hps]; exact h8, by show w.pageSize < _; omega, ?_⟩, hps⟩
        show (b ++ List.replicate _ _).length = w.pageSize
        rw [List.length_append, List.length_replicate]
        omega
      · exact Tri.panic
    · exact Tri.bind_panic (by rw [pageRange_eq hp, if_neg h])

theorem open_base {file : World} {coming : List (List Ev)} {ps : Nat} {w : Inner} (h8 : 8 ∣ ps) (h : openPaging file coming ps = some w) : Base w ∧ w.pageSize = ps := by
  unfold openPaging at h
  have h1 := (tri_apply (new_tri ⟨file, coming, [], [], ps, 0⟩ h8)).1
  split at h
  · rename_i v e
    cases h
    exact h1 _ _ e
  · cases h

end Radix.Browser.Paging
