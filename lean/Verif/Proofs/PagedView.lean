import Verif.Paged.View
import Verif.Proofs.PagedLast

/-
Bytes of the file that a blob shows are not changed.
-/

set_option linter.unusedVariables false

namespace Radix.Paged

variable {α β : Type} {dbg : Bool} {ps : Nat}

/-! ### What a call returns and does to the file does not depend on the recent blobs, if it does not look at them -/

def Blind (x : M α) : Prop := ∀ (w : Inner) (r : List (Nat × Bytes)), ∃ r', x { w with recent := r } = ((x w).1, { (x w).2 with recent := r' })

theorem blind_bind {x : M α} {f : α → M β} (hx : Blind x) (hf : ∀ a, Blind (f a)) : Blind (x >>= f) := by
  intro w r
  obtain ⟨r1, e⟩ := hx w r
  show ∃ r', M.bind x f _ = _
  simp only [bind, M.bind, e]
  rcases hxw : x w with ⟨o, w1⟩
  cases o with
  | ok a => exact hf a w1 r1
  | err => exact ⟨r1, rfl⟩
  | panic => exact ⟨r1, rfl⟩
  | crash => exact ⟨r1, rfl⟩

theorem blind_self {f : Inner → M β} (h : ∀ w r, f { w with recent := r } = f w) (hf : ∀ w, Blind (f w)) : Blind (self >>= f) := by
  intro w r
  show ∃ r', M.bind self f _ = _
  simp only [bind, M.bind, self]
  rw [h w r]
  exact hf w w r

theorem blind_update {g : Inner → Inner} (h : ∀ w r, ∃ r', g { w with recent := r } = { g w with recent := r' }) : Blind (update g) := by
  intro w r
  obtain ⟨r', e⟩ := h w r
  exact ⟨r', by simp only [update, e]⟩

theorem blind_pure (a : α) : Blind (pure a : M α) := fun w r => ⟨r, rfl⟩
theorem blind_fail : Blind (fail : M α) := fun w r => ⟨r, rfl⟩
theorem blind_die : Blind (die : M α) := fun w r => ⟨r, rfl⟩
theorem blind_panic : Blind (panic : M α) := fun w r => ⟨r, rfl⟩

theorem blind_ite {c : Prop} [Decidable c] {x y : M α} (hx : Blind x) (hy : Blind y) : Blind (if c then x else y) := by
  split <;> assumption

theorem blind_ensure (b : Bool) : Blind (ensure b) := by
  unfold ensure
  exact blind_ite (blind_pure _) blind_fail

theorem blind_nextEv : Blind nextEv := by
  rintro ⟨data, pos, size, pages, recent, last, evs⟩ r
  refine ⟨r, ?_⟩
  cases evs <;> rfl

theorem blind_sub64 (a b : Nat) : Blind (sub64 dbg a b) := by
  unfold sub64
  exact blind_ite (blind_pure _) (blind_ite blind_panic (blind_pure _))

theorem blind_put (bs : Bytes) : Blind (put bs) := blind_update fun w r => ⟨r, rfl⟩

theorem blind_writeAll (bs : Bytes) : Blind (writeAll bs) := by
  unfold writeAll
  refine blind_self (fun w r => rfl) fun w => blind_bind blind_nextEv fun e => ?_
  cases e with
  | ok => exact blind_ite (blind_put _) blind_fail
  | fail n => exact blind_bind (blind_put _) fun _ => blind_fail
  | crash n => exact blind_bind (blind_put _) fun _ => blind_die

theorem blind_seekStart (n : Nat) : Blind (seekStart n) := blind_bind (blind_ensure _) fun _ => blind_update fun w r => ⟨r, rfl⟩

theorem blind_seekEnd : Blind seekEnd :=
  blind_bind (blind_update fun w r => ⟨r, rfl⟩) fun _ => blind_self (fun _ _ => rfl) fun _ => blind_pure _

theorem blind_writeSize (n : Nat) : Blind (writeSize n) :=
  blind_bind (blind_seekStart _) fun _ => blind_bind (blind_writeAll _) fun _ => blind_bind blind_seekEnd fun _ => blind_pure _

theorem blind_commit : Blind commit :=
  blind_bind blind_seekEnd fun _ => blind_bind (blind_writeSize _) fun _ => blind_pure _

theorem blind_padLoop (offset : Nat) : ∀ n, Blind (padLoop n offset)
  | 0 => blind_pure _
  | n + 1 => by
    unfold padLoop
    refine blind_self (fun _ _ => rfl) fun w => ?_
    exact blind_ite (blind_bind (blind_writeAll _) fun _ => blind_padLoop offset n) (blind_pure _)

theorem blind_padTo (offset : Nat) : Blind (padTo offset) := blind_self (fun _ _ => rfl) fun w => blind_padLoop _ _

theorem blind_loadPage (p : Nat) : Blind (loadPage p) := by
  unfold loadPage
  refine blind_bind blind_nextEv fun e => ?_
  cases e with
  | ok => exact blind_update fun w r => ⟨r, rfl⟩
  | fail n => exact blind_fail
  | crash n => exact blind_die

theorem blind_closePage (p : Nat) : Blind (closePage p) := by
  unfold closePage
  exact blind_self (fun _ _ => rfl) fun w => blind_bind (blind_padTo _) fun _ => blind_bind blind_commit fun _ =>
    blind_bind (blind_loadPage _) fun _ => blind_update fun w r => ⟨_, rfl⟩

theorem blind_append (d : Bytes) : Blind (append dbg d) := by
  unfold append
  refine blind_self (fun _ _ => rfl) fun w => ?_
  refine blind_bind (blind_sub64 _ _) fun _ => blind_bind (blind_ensure _) fun _ => blind_bind blind_seekEnd fun _ => ?_
  have h1 : ∀ ps : Nat, Blind (do
      writeAll d
      writeAll (toBE 4 d.length)
      let id ← commit
      update fun w => { w with lastId := id }
      insertRecent id d
      if id % ps < 4 then
        unless id % 1024 > 4 do panic
      return id) := by
    intro ps
    refine blind_bind (blind_writeAll _) fun _ => blind_bind (blind_writeAll _) fun _ => blind_bind blind_commit fun _ => ?_
    refine blind_bind (blind_update fun w r => ⟨r, rfl⟩) fun _ => blind_bind (blind_update fun w r => ⟨_, rfl⟩) fun _ => ?_
    refine blind_ite ?_ (blind_pure _)
    exact blind_ite (blind_pure _) (blind_bind blind_panic fun _ => blind_pure _)
  refine blind_ite (blind_bind blind_panic fun _ => ?_) ?_
  · exact blind_ite (blind_bind (blind_closePage _) fun _ => h1 _) (h1 _)
  · exact blind_ite (blind_bind (blind_closePage _) fun _ => h1 _) (h1 _)

/-! ### Reading does not change the file -/

def Calm (x : M α) : Prop := ∀ w, (x w).2.data = w.data ∧ (x w).2.pageSize = w.pageSize ∧ (x w).2.lastId = w.lastId

theorem Calm.bind {x : M α} {f : α → M β} (hx : Calm x) (hf : ∀ a, Calm (f a)) : Calm (x >>= f) := by
  intro w
  show (M.bind x f w).2.data = _ ∧ (M.bind x f w).2.pageSize = _ ∧ (M.bind x f w).2.lastId = _
  have h := hx w
  unfold M.bind
  rcases e : x w with ⟨_ | _ | _ | _, w'⟩ <;> rw [e] at h
  · obtain ⟨a, b, c⟩ := hf _ w'
    exact ⟨a.trans h.1, b.trans h.2.1, c.trans h.2.2⟩
  all_goals exact h

theorem calm_pure (a : α) : Calm (pure a : M α) := fun w => ⟨rfl, rfl, rfl⟩
theorem calm_fail : Calm (fail : M α) := fun w => ⟨rfl, rfl, rfl⟩
theorem calm_panic : Calm (panic : M α) := fun w => ⟨rfl, rfl, rfl⟩
theorem calm_die : Calm (die : M α) := fun w => ⟨rfl, rfl, rfl⟩
theorem calm_self : Calm self := fun w => ⟨rfl, rfl, rfl⟩
theorem calm_ite {c : Prop} [Decidable c] {x y : M α} (hx : Calm x) (hy : Calm y) : Calm (if c then x else y) := by
  split <;> assumption
theorem calm_ensure (b : Bool) : Calm (ensure b) := calm_ite (calm_pure _) calm_fail
theorem calm_nextEv : Calm nextEv := by intro w; unfold nextEv; split <;> exact ⟨rfl, rfl, rfl⟩
theorem calm_add64 (a b : Nat) : Calm (add64 dbg a b) := calm_ite (calm_pure _) (calm_ite calm_panic (calm_pure _))
theorem calm_sub64 (a b : Nat) : Calm (sub64 dbg a b) := calm_ite (calm_pure _) (calm_ite calm_panic (calm_pure _))
theorem calm_seekStart (n : Nat) : Calm (seekStart n) := (calm_ensure _).bind fun _ w => ⟨rfl, rfl, rfl⟩
theorem calm_seekEnd : Calm seekEnd := Calm.bind (fun _ => ⟨rfl, rfl, rfl⟩) fun _ => calm_self.bind fun _ => calm_pure _

theorem calm_readExact (n : Nat) : Calm (readExact n) := by
  refine calm_self.bind fun w => calm_nextEv.bind fun e => ?_
  cases e with
  | ok => exact calm_ite (Calm.bind (fun _ => ⟨rfl, rfl, rfl⟩) fun _ => calm_pure _) calm_fail
  | fail n => exact calm_fail
  | crash n => exact calm_die

theorem calm_loadPage (n : Nat) : Calm (loadPage n) := by
  refine calm_nextEv.bind fun e => ?_
  cases e with
  | ok => exact fun _ => ⟨rfl, rfl, rfl⟩
  | fail n => exact calm_fail
  | crash n => exact calm_die

theorem calm_sliceBefore (b : Bytes) (hi n : Nat) : Calm (sliceBefore b hi n) := calm_ite (calm_pure _) calm_panic

theorem calm_loadRecent (n : Nat) : Calm (loadRecent dbg n) :=
  (calm_ensure _).bind fun _ => (calm_add64 _ _).bind fun _ => (calm_sub64 _ _).bind fun _ => (calm_seekStart _).bind fun _ =>
    (calm_readExact _).bind fun _ => (calm_ensure _).bind fun _ => (calm_add64 _ _).bind fun _ => (calm_sub64 _ _).bind fun _ =>
    (calm_sub64 _ _).bind fun _ => (calm_seekStart _).bind fun _ => (calm_readExact _).bind fun _ => calm_seekEnd.bind fun _ =>
    fun _ => ⟨rfl, rfl, rfl⟩

theorem calm_pageView (p o : Nat) : Calm (pageView p o) :=
  calm_self.bind fun _ => (calm_ensure _).bind fun _ => (calm_sliceBefore _ _ _).bind fun _ => (calm_ensure _).bind fun _ =>
    (calm_sliceBefore _ _ _).bind fun _ => calm_pure _

theorem calm_bytesView (n : Nat) : Calm (bytesView dbg n) := by
  refine calm_self.bind fun w => (calm_sub64 _ _).bind fun _ => ?_
  refine calm_ite ?_ ?_
  · exact calm_ite (calm_pageView _ _) ((calm_loadPage _).bind fun _ => calm_pageView _ _)
  · have h : Calm (do
        match findRecent (← self) n with
        | some blob => pure (.own blob)
        | none => panic : M View) := calm_self.bind fun w => by
      split
      · exact calm_pure _
      · exact calm_panic
    exact calm_ite h ((calm_loadRecent _).bind fun _ => h)

theorem calm_readView (id : Bytes) : Calm (readView dbg id) := calm_ite (calm_bytesView _) calm_panic

/-! ### The view has the bytes that were read -/

/-- Apply a function of the result and the state to a result. -/
def Out.show (file : Bytes) : Out View → Out Bytes
  | .ok v => .ok (v.bytes file)
  | .err => .err
  | .panic => .panic
  | .crash => .crash

def Shown (x : M View) (y : M Bytes) : Prop := ∀ w, y w = ((x w).1.show (x w).2.data, (x w).2)

theorem shown_bind {x : M α} {f : α → M View} {g : α → M Bytes} (h : ∀ a, Shown (f a) (g a)) : Shown (x >>= f) (x >>= g) := by
  intro w
  show M.bind x g w = ((M.bind x f w).1.show (M.bind x f w).2.data, (M.bind x f w).2)
  unfold M.bind
  rcases e : x w with ⟨_ | _ | _ | _, w'⟩
  · exact h _ w'
  all_goals rfl

theorem shown_ite {c : Prop} [Decidable c] {x x' : M View} {y y' : M Bytes} (h : Shown x y) (h' : Shown x' y') :
    Shown (if c then x else x') (if c then y else y') := by
  split <;> assumption

theorem slice_slice {data : Bytes} {a ps hi len : Nat} (h1 : len ≤ hi) (h2 : hi ≤ ((data.drop a).take ps).length) :
    (((data.drop a).take ps).drop (hi - len)).take len = (data.drop (a + (hi - len))).take len := by
  rw [List.length_take] at h2
  rw [List.drop_take, List.take_take, List.drop_drop]
  congr 1
  omega

theorem self_bind (f : Inner → M α) (w : Inner) : (self >>= f) w = f w w := rfl
theorem ensure_true {b : Bool} (h : b = true) (f : Unit → M α) (w : Inner) : (ensure b >>= f) w = f () w := by subst h; rfl
theorem ensure_false {b : Bool} (h : b = false) (f : Unit → M α) (w : Inner) : (ensure b >>= f) w = (.err, w) := by subst h; rfl
theorem slice_in {b : Bytes} {hi n : Nat} (h : n ≤ hi ∧ hi ≤ b.length) (f : Bytes → M α) (w : Inner) :
    (sliceBefore b hi n >>= f) w = f ((b.drop (hi - n)).take n) w := by rw [sliceBefore, if_pos h]; rfl
theorem slice_out {b : Bytes} {hi n : Nat} (h : ¬ (n ≤ hi ∧ hi ≤ b.length)) (f : Bytes → M α) (w : Inner) :
    (sliceBefore b hi n >>= f) w = (.panic, w) := by rw [sliceBefore, if_neg h]; rfl

theorem bind_ok {x : M α} {f : α → M β} {w w' : Inner} {b : β} (h : (x >>= f) w = (.ok b, w')) :
    ∃ a w1, x w = (.ok a, w1) ∧ f a w1 = (.ok b, w') := by
  change M.bind x f w = _ at h
  unfold M.bind at h
  rcases e : x w with ⟨_ | _ | _ | _, w1⟩ <;> rw [e] at h
  · exact ⟨_, _, rfl, h⟩
  all_goals cases h

theorem shown_pageView (p o : Nat) : Shown (pageView p o) (pageBytes p o) := by
  intro w
  unfold pageView pageBytes
  rw [self_bind, self_bind]
  by_cases h1 : 4 ≤ o
  · rw [ensure_true (by simpa using h1), ensure_true (by simpa using h1)]
    by_cases h2 : 4 ≤ o ∧ o ≤ ((w.data.drop (offsetOfPage p w.pageSize)).take w.pageSize).length
    · rw [slice_in h2, slice_in h2]
      generalize ofBE _ = len
      by_cases h3 : len + 4 ≤ o
      · rw [ensure_true (by simpa using h3), ensure_true (by simpa using h3)]
        by_cases h4 : len ≤ o - 4 ∧ o - 4 ≤ ((w.data.drop (offsetOfPage p w.pageSize)).take w.pageSize).length
        · rw [slice_in h4, sliceBefore, if_pos h4]
          show (Out.ok _, w) = (Out.ok _, w)
          rw [slice_slice h4.1 h4.2]
          rfl
        · rw [slice_out h4, sliceBefore, if_neg h4]; rfl
      · rw [ensure_false (by simpa using h3), ensure_false (by simpa using h3)]; rfl
    · rw [slice_out h2, slice_out h2]; rfl
  · rw [ensure_false (by simpa using h1), ensure_false (by simpa using h1)]; rfl

theorem shown_bytesView (n : Nat) : Shown (bytesView dbg n) (bytes dbg n) := by
  refine shown_bind fun w => shown_bind fun _ => ?_
  refine shown_ite ?_ ?_
  · exact shown_ite (shown_pageView _ _) (shown_bind fun _ => shown_pageView _ _)
  · have h : Shown (do
        match findRecent (← self) n with
        | some blob => pure (.own blob)
        | none => panic) (do
        match findRecent (← self) n with
        | some blob => pure blob
        | none => panic) := shown_bind fun w => by
      split
      · exact fun w => rfl
      · exact fun w => rfl
    exact shown_ite h (shown_bind fun _ => h)

theorem shown_readView (id : Bytes) : Shown (readView dbg id) (read dbg id) := shown_ite (shown_bytesView _) fun _ => rfl

/-! ### Where the view is -/

theorem ensure_ok {b : Bool} {w w' : Inner} {u : Unit} (h : ensure b w = (.ok u, w')) : b = true ∧ w' = w := by
  cases b
  · cases h
  · cases h; exact ⟨rfl, rfl⟩

theorem slice_ok {b bs : Bytes} {hi n : Nat} {w w' : Inner} (h : sliceBefore b hi n w = (.ok bs, w')) : n ≤ hi ∧ hi ≤ b.length ∧ w' = w := by
  unfold sliceBefore at h
  split at h
  · rename_i hh; cases h; exact ⟨hh.1, hh.2, rfl⟩
  · cases h

theorem pageView_place {pg o n : Nat} {w w' : Inner} {start len : Nat} (hp : 0 < w.pageSize) (hlt : pg < n / w.pageSize)
    (h : pageView pg o w = (.ok (.map start len), w')) : 4096 ≤ start ∧ start + len ≤ 4096 + n := by
  unfold pageView at h
  rw [self_bind] at h
  obtain ⟨_, w1, e1, h⟩ := bind_ok h
  obtain ⟨h1, rfl⟩ := ensure_ok e1
  obtain ⟨_, w2, e2, h⟩ := bind_ok h
  obtain ⟨h2, h3, rfl⟩ := slice_ok e2
  obtain ⟨_, w3, e3, h⟩ := bind_ok h
  obtain ⟨h4, rfl⟩ := ensure_ok e3
  obtain ⟨_, w4, e4, h⟩ := bind_ok h
  obtain ⟨h5, h6, rfl⟩ := slice_ok e4
  cases h
  rw [List.length_take] at h3
  have := (Nat.le_div_iff_mul_le hp).1 hlt
  rw [Nat.succ_mul] at this
  have h4 := of_decide_eq_true h4
  rw [offsetOfPage, headerSize]
  omega

theorem sub64_ok {a b x : Nat} {w w' : Inner} (h : sub64 dbg a b w = (.ok x, w')) : w' = w := by
  unfold sub64 at h
  split at h
  · cases h; rfl
  · split at h <;> cases h; rfl

theorem bytesView_place {n : Nat} {w w' : Inner} {start len : Nat} (hp : 0 < w.pageSize) (h : bytesView dbg n w = (.ok (.map start len), w')) :
    4096 ≤ start ∧ start + len ≤ 4096 + w.lastId := by
  unfold bytesView at h
  rw [self_bind] at h
  obtain ⟨k, w1, e1, h⟩ := bind_ok h
  have := sub64_ok e1
  subst this
  dsimp only at h
  by_cases hlt : page k w1.pageSize < page w1.lastId w1.pageSize
  · rw [if_pos hlt] at h
    by_cases hc : w1.pages.contains (page k w1.pageSize) = true
    · rw [if_pos hc] at h
      exact pageView_place hp hlt h
    · rw [if_neg hc] at h
      obtain ⟨_, w2, e2, h⟩ := bind_ok h
      have hcalm := calm_loadPage (page k w1.pageSize) w1
      rw [e2] at hcalm
      dsimp only at hcalm
      exact pageView_place (hcalm.2.1 ▸ hp) (hcalm.2.1 ▸ hlt) h
  · exfalso
    rw [if_neg hlt] at h
    have h' : ∀ u, (do
        match findRecent (← self) n with
        | some blob => pure (.own blob)
        | none => panic : M View) u ≠ (.ok (.map start len), w') := by
      intro u hu
      rw [self_bind] at hu
      cases e : findRecent u n <;> rw [e] at hu <;> cases hu
    by_cases hc : (findRecent w1 n).isSome = true
    · rw [if_pos hc] at h; exact h' _ h
    · rw [if_neg hc] at h
      obtain ⟨_, w2, e2, h⟩ := bind_ok h
      exact h' _ h

/-! ### Steps -/

/-- What histories reach: the file has bytes `B` after the header, of which the first `c` stay as they are. -/
def St (ps c : Nat) (B : Bytes) (W : World) : Prop :=
  ∃ H w, At False ps c H B { w with recent := [] } ∧ W.file = w.data ∧ (W.store = none ∨ W.store = some w ∧ w.lastId ≤ c)

theorem At.forget {q : Prop} {c : Nat} {H B : Bytes} {w : Inner} (h : At q ps c H B w) : At q ps c H B { w with recent := [] } :=
  h.setRecent (by simp)

theorem At.raise {q : Prop} {c c' : Nat} {H B : Bytes} {w : Inner} (h : At q ps c H B w) (h' : c' = hdr H) (hc : hdr H = B.length) : At q ps c' H B w :=
  ⟨h.data, h.hlen, by rw [h', hc]; exact hdr_self (Nat.le_refl _) (hc ▸ h.ok.2.2.2.1), h.max, h.psz, h.last, h.recent, h.quiet⟩

theorem At.of_eq {q : Prop} {c : Nat} {H B : Bytes} {w w' : Inner} (h : At q ps c H B { w with recent := [] }) (e1 : w'.data = w.data)
    (e2 : w'.pageSize = w.pageSize) (e3 : w'.lastId = w.lastId) : At False ps c H B { w' with recent := [] } :=
  ⟨e1.trans h.data, h.hlen, h.ok, h.max, e2.trans h.psz, (show w'.lastId ≤ _ by rw [e3]; exact h.last), by simp, False.elim⟩

theorem st_after {c : Nat} {H B : Bytes} {r : Out α × Inner} (h : At False ps c H B { r.2 with recent := [] }) (hl : r.2.lastId ≤ c) :
    St ps c B (after r) := by
  rcases r with ⟨o, w⟩
  refine ⟨H, w, h, ?_, ?_⟩ <;> cases o
  all_goals first | rfl | exact Or.inl rfl | exact Or.inr ⟨rfl, hl⟩

theorem write_blind (d : Bytes) : Blind (write dbg d) := blind_bind (blind_append d) fun _ => blind_pure _

theorem st_step {c : Nat} {B : Bytes} {W : World} (h8 : 8 ≤ ps) (h : St ps c B W) (op : Op) :
    ∃ c' B', St ps c' B' (step dbg ps W op).2 ∧ c ≤ c' ∧ B'.take c = B.take c := by
  obtain ⟨H, w, hat, hf, hst⟩ := h
  have stay : ∃ c' B', St ps c' B' W ∧ c ≤ c' ∧ B'.take c = B.take c := ⟨c, B, ⟨H, w, hat, hf, hst⟩, Nat.le_refl _, rfl⟩
  have hcB := hat.ok.1
  cases op with
  | «open» evs =>
    have hat' : At (NoFault evs) ps c H B ⟨W.file, 0, ps, [], [], 0, evs⟩ :=
      ⟨by rw [hf]; exact hat.data, hat.hlen, hat.ok, hat.max, rfl, Nat.zero_le _, by simp, fun hh => hh⟩
    simp only [step]
    rcases hoare_cases (hoare_new_exact (dbg := dbg) hat') with ⟨a, w', e, B', g1, g2, g3, g4⟩ | ⟨w', e, hwhy, g1⟩
    · rw [e]
      refine ⟨w'.lastId, B', ⟨H, w', ((g1.raise g4 (by omega)).weaken False.elim).forget, rfl, Or.inr ⟨rfl, Nat.le_refl _⟩⟩, ?_, ?_⟩
      · rw [g4]; exact hat.ok.2.1
      · have := hat.ok.2.1
        rw [g2, List.take_append_of_le_length (by rw [List.length_take]; omega), List.take_take, Nat.min_eq_left this]
    · refine ⟨c, B, ⟨H, w', (g1.weaken False.elim).forget, ?_⟩, Nat.le_refl _, rfl⟩
      rcases e with e | e <;> rw [e] <;> exact ⟨rfl, Or.inl rfl⟩
  | write d evs =>
    simp only [step]
    rcases hst with hst | ⟨hst, hl⟩
    · rw [hst]; exact stay
    · rw [hst]
      dsimp only
      have hat0 := at_call hat evs
      obtain ⟨r', eb⟩ := blind_append (dbg := dbg) d { w with recent := [], evs := evs } w.recent
      have ew : write dbg d { w with evs := evs } = (match append dbg d { w with recent := [], evs := evs } with
          | (.ok a, u) => (.ok (toBE 8 a), { u with recent := r' })
          | (.err, u) => (.err, { u with recent := r' })
          | (.panic, u) => (.panic, { u with recent := r' })
          | (.crash, u) => (.crash, { u with recent := r' })) := by
        show M.bind (append dbg d) _ _ = _
        unfold M.bind
        have : append dbg d { w with evs := evs } = ((append dbg d { w with recent := [], evs := evs }).1, { (append dbg d { w with recent := [], evs := evs }).2 with recent := r' }) := eb
        rw [this]
        rcases append dbg d { w with recent := [], evs := evs } with ⟨_ | _ | _ | _, u⟩ <;> rfl
      rw [ew]
      rcases hoare_cases (hoare_append_raw (dbg := dbg) (d := d) hat0 h8) with
        ⟨id, u, e, H', tl, r, pre, g1, g2, g3, g4, g5, g6, g7, g8⟩ | ⟨u, e, hwhy, H', tl, g1⟩
      · rw [e]
        refine ⟨id, B ++ tl, st_after (r := (Out.ok (toBE 8 id), { u with recent := r' })) (H := H') ?_ (by dsimp only; omega), by omega, ?_⟩
        · exact (g1.weaken False.elim).forget
        · exact List.take_append_of_le_length hcB
      · have hk := keeps_append (dbg := dbg) d { w with recent := [], evs := evs }
        refine ⟨c, B ++ tl, ?_, Nat.le_refl _, List.take_append_of_le_length hcB⟩
        rcases e with e | e
        · rw [e] at hk ⊢
          exact st_after (r := (Out.err (α := Bytes), { u with recent := r' })) (H := H') (g1.weaken False.elim).forget
            (by rw [show ({ u with recent := r' } : Inner).lastId = w.lastId from hk (Or.inl rfl)]; exact hl)
        · rw [e] at hk ⊢
          exact st_after (r := (Out.crash (α := Bytes), { u with recent := r' })) (H := H') (g1.weaken False.elim).forget
            (by rw [show ({ u with recent := r' } : Inner).lastId = w.lastId from hk (Or.inr rfl)]; exact hl)
  | read id evs =>
    simp only [step]
    rcases hst with hst | ⟨hst, hl⟩
    · rw [hst]; exact stay
    · rw [hst]
      dsimp only
      rw [shown_readView id]
      obtain ⟨c1, c2, c3⟩ := calm_readView (dbg := dbg) id { w with evs := evs }
      refine ⟨c, B, st_after (H := H) ?_ (by rw [c3]; exact hl), Nat.le_refl _, rfl⟩
      exact hat.of_eq c1 c2 c3
  | lastId =>
    simp only [step]
    rcases hst' : W.store with _ | s <;> simp only <;> exact stay

theorem st_run (h8 : 8 ≤ ps) (ops : List Op) : ∀ {c : Nat} {B : Bytes} {W : World}, St ps c B W →
    ∃ c' B', St ps c' B' (run dbg ps W ops) ∧ c ≤ c' ∧ B'.take c = B.take c := by
  induction ops with
  | nil => exact fun h => ⟨_, _, h, Nat.le_refl _, rfl⟩
  | cons op ops ih =>
    intro c B W h
    obtain ⟨c1, B1, h1, h2, h3⟩ := st_step (dbg := dbg) h8 h op
    obtain ⟨c2, B2, g1, g2, g3⟩ := ih h1
    refine ⟨c2, B2, g1, Nat.le_trans h2 g2, ?_⟩
    have := congrArg (List.take c) g3
    rw [List.take_take, List.take_take, Nat.min_eq_left h2] at this
    rw [this, h3]

/-- Nothing, or a state with a header. -/
theorem st_reach (h8 : 8 ≤ ps) (ops : List Op) : ∀ {W : World}, W = fresh ∨ (∃ c B, St ps c B W) →
    run dbg ps W ops = fresh ∨ ∃ c B, St ps c B (run dbg ps W ops) := by
  induction ops with
  | nil => exact fun h => h
  | cons op ops ih =>
    intro W h
    refine ih ?_
    rcases h with rfl | ⟨c, B, h⟩
    · cases op with
      | «open» evs =>
        have hh := hoare_new_empty (dbg := dbg) (w := ⟨[], 0, ps, [], [], 0, evs⟩) (q := NoFault evs) (ps := ps) rfl rfl rfl rfl
          (fun hh => hh)
        simp only [step, fresh]
        rcases hoare_cases hh with ⟨a, w', e, H', B', g1, g2, g3⟩ | ⟨w', e, hwhy, g1⟩
        · rw [e]
          exact Or.inr ⟨0, B', H', w', (g1.weaken False.elim).forget, rfl, Or.inr ⟨rfl, by omega⟩⟩
        · rcases g1 with g1 | ⟨H', B', g1⟩
          · left
            rcases e with e | e <;> rw [e] <;> dsimp only <;> rw [g1]
          · right
            refine ⟨0, B', H', w', (g1.weaken False.elim).forget, ?_⟩
            rcases e with e | e <;> rw [e] <;> exact ⟨rfl, Or.inl rfl⟩
      | write d evs => exact Or.inl rfl
      | read id evs => exact Or.inl rfl
      | lastId => exact Or.inl rfl
    · obtain ⟨c', B', h, _⟩ := st_step (dbg := dbg) h8 h op
      exact Or.inr ⟨c', B', h⟩

theorem view_stays {c : Nat} {B : Bytes} {W W' : World} {c' : Nat} {B' : Bytes} (h : St ps c B W) (h' : St ps c' B' W') (hc : c ≤ c')
    (hB : B'.take c = B.take c) {start len : Nat} (h1 : 4096 ≤ start) (h2 : start + len ≤ 4096 + c) :
    (View.map start len).Valid W'.file ∧ (View.map start len).bytes W'.file = (View.map start len).bytes W.file := by
  obtain ⟨H, w, hat, hf, _⟩ := h
  obtain ⟨H', w', hat', hf', _⟩ := h'
  have hl := hat'.len
  dsimp only at hl
  have b1 := hat.ok.1
  have b2 := hat'.ok.1
  refine ⟨by simp only [View.Valid, hf']; omega, ?_⟩
  simp only [View.bytes]
  obtain ⟨k, rfl⟩ : ∃ k, start = 4096 + k := ⟨start - 4096, by omega⟩
  have e1 := hat.drop k
  have e2 := hat'.drop k
  dsimp only at e1 e2
  rw [hf, hf', e1, e2]
  have : ∀ X : Bytes, (X.drop k).take len = ((X.take c).drop k).take len := by
    intro X
    rw [List.drop_take, List.take_take]
    congr 1
    omega
  rw [this B', this B, hB]

end Radix.Paged
