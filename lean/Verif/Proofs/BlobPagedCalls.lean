import Verif.Proofs.BlobPagedStore

/-
The calls of `PagedFileStore` in memory.
-/

set_option linter.unusedVariables false

namespace Radix.Blobs
open Radix.Paged (View M Inner Out)

variable {α β : Type}

theorem pref_congr {hold : α → List Nat} {same : Mem → PState → Inner → α → β → Prop} {H : List Nat} {pre : Mem → PState → Inner → Prop}
    {x x' : Act PState α} {y y' : M β} (hx : ∀ m t s, PRel m t s → pre m t s → x t m = x' t m) (hy : ∀ m t s, PRel m t s → pre m t s → y s = y' s)
    (h : PRef hold same H pre x' y') : PRef hold same H pre x y := by
  intro rest m t s hi hr hp
  obtain ⟨r, t', m', e, hh⟩ := h rest m t s hi hr hp
  refine ⟨r, t', m', by rw [hx m t s hr hp]; exact e, ?_⟩
  have : plM y s = plM y' s := by unfold plM; rw [hy m t s hr hp]
  rw [this]
  exact hh

theorem pref_also {hold : α → List Nat} {same : Mem → PState → Inner → α → β → Prop} {H : List Nat} {pre : Mem → PState → Inner → Prop}
    {x : Act PState α} {y : M β} {Q : PState → Prop} (hq : ∀ t m a t' m', x t m = some (.ok a, t', m') → Q t') (h : PRef hold same H pre x y) :
    PRef hold (fun m t s a b => same m t s a b ∧ Q t) H pre x y := by
  intro rest m t s hi hr hp
  obtain ⟨r, t', m', e, hh⟩ := h rest m t s hi hr hp
  refine ⟨r, t', m', e, ?_⟩
  unfold Post at hh ⊢
  rcases eq : plM y s with ⟨q, s'⟩
  rw [eq] at hh
  cases r <;> cases q <;> dsimp only at hh ⊢ <;> first
    | exact hh.elim
    | exact ⟨⟨hh.1, hq _ _ _ _ _ e⟩, hh.2⟩
    | exact hh

/-- A blob of the table of recent blobs is cloned. -/
theorem cloneBlob_ref (b : Blob) (v : View) {pre : Mem → PState → Inner → Prop} (hp : ∀ m t s, pre m t s → (∀ a ∈ b.refs, a ∈ prefs t) ∧ Shows m b v) :
    PRef Blob.refs (fun m _ _ b v => Shows m b v) [] pre (do
      Act.mem fun m => (b.clone m).map fun m => ((), m)
      return b) (pure v) := by
  intro rest m t s hi hr hpre
  obtain ⟨h1, h2⟩ := hp m t s hpre
  obtain ⟨m', e', i', g'⟩ := clone_ok (b := b) (R := prefs t ++ rest) hi (fun a ha => List.mem_append_left _ (h1 a ha))
  refine ⟨.ok b, t, m', ?_, ⟨h2.mono (fun a _ => g' a), i'.of (fun x => ?_), prel_mono hr (fun a _ => g' a), fun a _ => g' a⟩⟩
  · show Act.bind _ _ t m = _
    simp only [Act.bind, Act.mem, e', Option.map_some]
    rfl
  · simp only [List.count_append]; omega

theorem findBlob_mem {t : PState} {id : Nat} {b : Blob} (h : findBlob t id = some b) : ∀ a ∈ b.refs, a ∈ prefs t := by
  intro a ha
  unfold findBlob at h
  rcases e : t.recent.find? (fun e => e.1 = id) with _ | x
  · rw [e] at h; cases h
  · rw [e] at h
    have hx : x.2 = b := by simpa using h
    exact List.mem_append_right _ (List.mem_flatMap.2 ⟨x, List.mem_of_find?_eq_some e, by rw [hx]; exact ha⟩)

/-- The end of a read of a recent blob. -/
theorem getRecent_ref (offset : Nat) {pre : Mem → PState → Inner → Prop} :
    PRef Blob.refs (fun m _ _ b v => Shows m b v) [] pre
      (do
        match findBlob (← Act.self) offset with
        | some b => do
          Act.mem fun m => (b.clone m).map fun m => ((), m)
          return b
        | none => Act.panic)
      (do
        match Paged.findRecent (← Paged.self) offset with
        | some blob => pure (.own blob)
        | none => Paged.panic) := by
  refine pref_self fun t0 s0 => ?_
  intro rest m t s hi hr hp
  obtain ⟨-, h1, h2, -⟩ := hp
  subst h1; subst h2
  have hf := recRel_find offset hr.recent
  unfold findBlob Paged.findRecent
  cases e1 : (t.recent.find? fun e => e.1 = offset).map (·.2) with
  | none =>
    cases e2 : (s.recent.find? fun e => e.1 = offset).map (·.2) with
    | none => exact pref_panic (pre := fun _ _ _ => True) rest m t s hi hr trivial
    | some d => rw [e1, e2] at hf; exact hf.elim
  | some b =>
    cases e2 : (s.recent.find? fun e => e.1 = offset).map (·.2) with
    | none => rw [e1, e2] at hf; exact hf.elim
    | some d =>
      rw [e1, e2] at hf
      exact cloneBlob_ref b (.own d) (pre := fun m' t' s' => m' = m ∧ t' = t) (fun m' t' s' hh => by
        obtain ⟨rfl, rfl⟩ := hh
        exact ⟨findBlob_mem (id := offset) e1, hf⟩) rest m t s hi hr ⟨rfl, rfl⟩

/-- The end of a read of a page. -/
theorem getPage_ref (pg off : Nat) {pre : Mem → PState → Inner → Prop} (hp : ∀ m t s, pre m t s → ∃ a, find t.pages pg = some a) :
    PRef Blob.refs (fun m _ _ b v => Shows m b v) [] pre
      (do
        match find (← Act.self).pages pg with
        | some a => pageBlob pg a off
        | none => Act.panic)
      (Paged.pageView pg off) := by
  intro rest m t s hi hr hpre
  obtain ⟨a, ha⟩ := hp m t s hpre
  obtain ⟨r, t', m', e, hh⟩ := pageBlob_ref pg a off (pre := fun m t s => find t.pages pg = some a) (fun m t s h => h) rest m t s hi hr ha
  refine ⟨r, t', m', ?_, hh⟩
  show (match find t.pages pg with
        | some a => pageBlob pg a off
        | none => Act.panic : Act PState Blob) t m = _
  rw [ha]
  exact e

theorem bytes_ref (dbg : Bool) (offset : Nat) {pre : Mem → PState → Inner → Prop} :
    PRef Blob.refs (fun m _ _ b v => Shows m b v) [] pre (pagedBytes dbg offset) (Paged.bytesView dbg offset) := by
  unfold pagedBytes Paged.bytesView
  refine pref_self fun t0 s0 => ?_
  refine pref_use (P := t0.base.pageSize = s0.pageSize ∧ t0.base.lastId = s0.lastId) (fun m t s hp => by rw [hp.2.2.2]; exact ⟨rfl, rfl⟩) fun e => ?_
  dsimp only
  rw [e.1, e.2]
  refine pref_bind (pref_sub64 dbg offset 1) fun x y => ?_
  refine pref_use (P := x = y) (fun m t s hp => hp.1) fun exy => ?_
  subst exy
  refine pref_ite Iff.rfl ?_ ?_
  · by_cases hc : s0.pages.contains (Paged.page x s0.pageSize) = true
    · rw [if_pos hc]
      have hfind : ∀ m t s, PRel m t s → (x = x ∧ pre m t s ∧ t = t0 ∧ s = s0 ∧ t0.base = { s0 with pages := [], recent := [] }) →
          ∃ a, find t.pages (Paged.page x s0.pageSize) = some a := by
        intro m t s hr hp
        have := hr.pages (Paged.page x s0.pageSize)
        rw [hp.2.2.2.1] at this
        split at this
        · rename_i a ea; exact ⟨a, ea⟩
        · rw [hc] at this; cases this
      refine pref_congr (fun m t s hr hp => ?_) (fun _ _ _ _ _ => rfl)
        (fun rest m t s hi hr hp => getPage_ref (Paged.page x s0.pageSize) (Paged.offsetWithinPage offset s0.pageSize)
          (pre := fun _ t _ => ∃ a, find t.pages (Paged.page x s0.pageSize) = some a) (fun m t s h => h) rest m t s hi hr (hfind m t s hr hp))
      obtain ⟨a, ha⟩ := hfind m t s hr hp
      show Act.bind (if (find t.pages (Paged.page x s0.pageSize)).isSome then pure () else loadPage (Paged.page x s0.pageSize)) _ t m = _
      rw [ha]
      rfl
    · rw [if_neg hc]
      refine pref_congr (x' := loadPage (Paged.page x s0.pageSize) >>= fun _ => do
            match find (← Act.self).pages (Paged.page x s0.pageSize) with
            | some a => pageBlob (Paged.page x s0.pageSize) a (Paged.offsetWithinPage offset s0.pageSize)
            | none => Act.panic) (fun m t s hr hp => ?_) (fun _ _ _ _ _ => rfl) ?_
      · have hn : find t.pages (Paged.page x s0.pageSize) = none := by
          have := hr.pages (Paged.page x s0.pageSize)
          rw [hp.2.2.2.1] at this
          split at this
          · exact absurd this.1 hc
          · assumption
        show Act.bind (if (find t.pages (Paged.page x s0.pageSize)).isSome then pure () else loadPage (Paged.page x s0.pageSize)) _ t m = _
        rw [hn]
        rfl
      · exact pref_bind (pref_also (Q := fun t => ∃ a, find t.pages (Paged.page x s0.pageSize) = some a)
          (fun t m a t' m' h => loadPage_find _ t m a t' m' h) (loadPage_ref _)) fun _ _ => getPage_ref _ _ (fun m t s h => h.2)
  · by_cases hc : (Paged.findRecent s0 offset).isSome = true
    · rw [if_pos hc]
      refine pref_congr (x' := do
        match findBlob (← Act.self) offset with
        | some b => do
          Act.mem fun m => (b.clone m).map fun m => ((), m)
          return b
        | none => Act.panic) (fun m t s hr hp => ?_) (fun _ _ _ _ _ => rfl) (getRecent_ref offset)
      have hf := recRel_find offset hr.recent
      rw [hp.2.2.2.1] at hf
      have hs : (findBlob t offset).isSome = true := by
        unfold findBlob
        unfold Paged.findRecent at hc
        split at hf
        · rename_i e1 e2; rw [e1]; rfl
        · rename_i e1 e2; rw [e2] at hc; cases hc
        · exact hf.elim
      show Act.bind (if (findBlob t offset).isSome then pure () else loadRecent dbg offset) _ t m = _
      rw [hs]
      rfl
    · rw [if_neg hc]
      refine pref_congr (x' := loadRecent dbg offset >>= fun _ => do
        match findBlob (← Act.self) offset with
        | some b => do
          Act.mem fun m => (b.clone m).map fun m => ((), m)
          return b
        | none => Act.panic) (fun m t s hr hp => ?_) (fun _ _ _ _ _ => rfl)
        (pref_bind (loadRecent_ref dbg offset) fun _ _ => getRecent_ref offset)
      have hf := recRel_find offset hr.recent
      rw [hp.2.2.2.1] at hf
      have hs : (findBlob t offset).isSome = false := by
        unfold findBlob
        unfold Paged.findRecent at hc
        split at hf
        · rename_i e1 e2; rw [e2] at hc; exact absurd rfl hc
        · rename_i e1 e2; rw [e1]; rfl
        · exact hf.elim
      show Act.bind (if (findBlob t offset).isSome then pure () else loadRecent dbg offset) _ t m = _
      rw [hs]
      rfl

theorem append_ref (dbg : Bool) (data : Bytes) {pre : Mem → PState → Inner → Prop} :
    PRef no (fun _ _ _ a b => a = b) [] pre (pagedAppend dbg data) (Paged.append dbg data) := by
  unfold pagedAppend Paged.append
  refine pref_self fun t0 s0 => ?_
  refine pref_use (P := t0.base.pageSize = s0.pageSize) (fun m t s hp => by rw [hp.2.2.2]) fun e => ?_
  dsimp only
  rw [e]
  refine pref_bind (pref_ofM (indep_sub64 _ _ _)) fun r r' => ?_
  refine pref_use (P := r = r') (fun m t s hp => hp) fun er => ?_
  subst er
  refine pref_bind (pref_ofM (indep_ensure _)) fun _ _ => ?_
  refine pref_bind (pref_ofM indep_seekEnd) fun pos pos' => ?_
  refine pref_use (P := pos = pos') (fun m t s hp => hp) fun er => ?_
  subst er
  refine pref_ite Iff.rfl ?_ ?_
  · exact pref_panic
  · have h1 : ∀ {pre : Mem → PState → Inner → Prop}, PRef no (fun _ _ _ a b => a = b) [] pre (do
        ofM (Paged.writeAll data)
        ofM (Paged.writeAll (toBE 4 data.length))
        let id ← ofM Paged.commit
        ofM (Paged.update fun w => { w with lastId := id })
        let b ← Act.mem fun m => some (Blob.copy m data)
        insertRecent id b
        if id % s0.pageSize < 4 then
          if id % 1024 > 4 then return id else Act.panic
        else return id) (do
        Paged.writeAll data
        Paged.writeAll (toBE 4 data.length)
        let id ← Paged.commit
        Paged.update fun w => { w with lastId := id }
        Paged.insertRecent id data
        if id % s0.pageSize < 4 then
          unless id % 1024 > 4 do Paged.panic
        return id) := by
      intro pre
      refine pref_bind (pref_ofM (indep_writeAll _)) fun _ _ => pref_bind (pref_ofM (indep_writeAll _)) fun _ _ => ?_
      refine pref_bind (pref_ofM indep_commit) fun id id' => ?_
      refine pref_use (P := id = id') (fun m t s hp => hp) fun er => ?_
      subst er
      refine pref_bind (pref_ofM (indep_update (g := fun w => { w with lastId := id }) (fun w p r => rfl) (fun w => rfl))) fun _ _ => ?_
      refine pref_congr (x' := (do
          let b ← Act.mem fun m => some (Blob.copy m data)
          insertRecent id b : Act PState Unit) >>= fun _ =>
          if id % s0.pageSize < 4 then
            if id % 1024 > 4 then pure id else Act.panic
          else pure id) (fun m t s hr hp => ?_) (fun _ _ _ _ _ => rfl) ?_
      · show Act.bind _ _ t m = Act.bind (Act.bind _ _) _ t m
        simp only [Act.bind, Act.mem, Option.map_some]
        rfl
      · refine pref_bind (insertRecent_ref id data) fun _ _ => ?_
        refine pref_ite Iff.rfl (pref_ite Iff.rfl (pref_pure rfl fun _ _ _ _ => rfl) pref_panic) (pref_pure rfl fun _ _ _ _ => rfl)
    by_cases hc : Paged.page (pos - Paged.headerSize + (data.length + 4)) s0.pageSize ≠ Paged.page (pos - Paged.headerSize) s0.pageSize
    · rw [if_pos hc]
      refine pref_congr ?_ ?_ (pref_bind (closePage_ref (Paged.page (pos - Paged.headerSize) s0.pageSize)) fun _ _ => h1)
      · intros; rfl
      · intro m t s hr hp
        rw [if_pos hc]
    · rw [if_neg hc]
      refine pref_congr ?_ ?_ h1
      · intros; rfl
      · intro m t s hr hp
        rw [if_neg hc]

/-- The outcome of a call of the model without memory, as `pagedAns` has it. -/
theorem answer_ok {hold : α → List Nat} {same : Mem → PState → Inner → α → β → Prop} {x : Act PState α} {y : M β} {f : α → Ans Blob} {g : β → Ans View}
    (h : PRef hold same [] (fun _ _ _ => True) x y)
    (hs : ∀ m t s a b, same m t s a b → (f a).seen = (g b).seen ∧ AllShow m (f a).blob? (g b).blob? ∧ (f a).blob?.flatMap Blob.refs = hold a)
    {rest : List Nat} {m : Mem} {t : PState} {s : Inner} (hi : Inv m (prefs t ++ rest)) (hr : PRel m t s) :
    ∃ a t' m', (x t m).map (answer f true) = some (a, t', m') ∧ a.seen = (Spec.Blobs.pagedAns g (y s)).1.seen ∧
      AllShow m' a.blob? (Spec.Blobs.pagedAns g (y s)).1.blob? ∧
      After prefs PRel rest m m' a t' (Spec.Blobs.pagedAns g (y s)).2 := by
  obtain ⟨r, t', m', e, hh⟩ := h rest m t s hi hr trivial
  rw [e]
  unfold Post plM at hh
  rcases ey : y s with ⟨o, s'⟩
  rw [ey] at hh
  cases o with
  | ok b =>
    cases r <;> first | exact hh.elim | skip
    rename_i a
    obtain ⟨h1, h2, h3, h4⟩ := hh
    obtain ⟨g1, g2, g3⟩ := hs _ _ _ _ _ h1
    exact ⟨f a, some t', m', rfl, g1, g2, by rw [g3]; exact h2, h3, h4⟩
  | err =>
    cases r <;> first | exact hh.elim | skip
    exact ⟨.err, some t', m', rfl, rfl, trivial, hh.1, hh.2.1, hh.2.2⟩
  | panic =>
    cases r <;> first | exact hh.elim | skip
    have hh := hh rfl
    exact ⟨.panic, some t', m', rfl, rfl, trivial, hh.1, hh.2.1, hh.2.2⟩
  | crash =>
    cases r <;> first | exact hh.elim | skip
    exact ⟨.crash, none, m', rfl, rfl, trivial, trivial⟩

theorem prel_evs {m : Mem} {t : PState} {s : Inner} (h : PRel m t s) (evs : List Paged.Ev) :
    PRel m { t with base := { t.base with evs := evs } } { s with evs := evs } :=
  ⟨by dsimp only; rw [h.base], h.pages, h.recent⟩

theorem keeps_paged (dbg : Bool) : Keeps (pagedImpl dbg) (Spec.Blobs.pagedPlain dbg) PRel where
  frame m m' t s hg h := prel_mono h hg
  step m t s c rest hi hr := by
    cases c with
    | write d evs =>
      have e : Spec.Blobs.pagedPlain dbg s (.write d evs) = Spec.Blobs.pagedAns (fun n => .id (toBE 8 n)) (Paged.append dbg d { s with evs := evs }) := by
        show Spec.Blobs.pagedAns .id (Paged.M.bind (Paged.append dbg d) (fun n => pure (toBE 8 n)) { s with evs := evs }) = _
        unfold Paged.M.bind
        rcases Paged.append dbg d { s with evs := evs } with ⟨o, s'⟩
        cases o <;> rfl
      rw [e]
      exact answer_ok (t := { t with base := { t.base with evs := evs } }) (f := fun n => .id (toBE 8 n)) (g := fun n => .id (toBE 8 n)) (append_ref dbg d)
        (fun m t s a b h => by subst h; exact ⟨rfl, trivial, rfl⟩) hi (prel_evs hr evs)
    | read id evs =>
      show ∃ a t' m', (if id.length = 8 then _ else _) = some (a, t', m') ∧ _
      by_cases hl : id.length = 8
      · rw [if_pos hl]
        have e : Spec.Blobs.pagedPlain dbg s (.read id evs) = Spec.Blobs.pagedAns .blob (Paged.bytesView dbg (ofBE id) { s with evs := evs }) := by
          show Spec.Blobs.pagedAns .blob (Paged.readView dbg id _) = _
          unfold Paged.readView
          rw [if_pos hl]
        rw [e]
        exact answer_ok (t := { t with base := { t.base with evs := evs } }) (f := .blob) (g := .blob) (bytes_ref dbg (ofBE id)) (fun m t s a b h => ⟨rfl, ⟨h, trivial⟩, by simp [Ans.blob?]⟩) hi (prel_evs hr evs)
      · rw [if_neg hl]
        have e : Spec.Blobs.pagedPlain dbg s (.read id evs) = (.panic, some { s with evs := evs }) := by
          show Spec.Blobs.pagedAns .blob (Paged.readView dbg id _) = _
          unfold Paged.readView
          rw [if_neg hl]
          rfl
        rw [e]
        exact ⟨.panic, _, _, rfl, rfl, trivial, hi, prel_evs hr evs, fun _ _ => rfl⟩
    | lastId =>
      have e : Paged.lastIdOf t.base = Paged.lastIdOf s := by rw [hr.base]; rfl
      show ∃ a t' m', some ((match Paged.lastIdOf t.base with | some id => Ans.id id | none => Ans.unit), some t, m) = some (a, t', m') ∧ _
      rw [e]
      refine ⟨_, _, _, rfl, ?_⟩
      show (match Paged.lastIdOf s with | some id => (Ans.id id : Ans Blob) | none => Ans.unit).seen =
        (match Paged.lastIdOf s with | some id => (Ans.id id : Ans View) | none => Ans.unit).seen ∧ AllShow m
          (match Paged.lastIdOf s with | some id => (Ans.id id : Ans Blob) | none => Ans.unit).blob?
          (match Paged.lastIdOf s with | some id => (Ans.id id : Ans View) | none => Ans.unit).blob? ∧
          Inv m (prefs t ++ ((match Paged.lastIdOf s with | some id => (Ans.id id : Ans Blob) | none => Ans.unit).blob?.flatMap Blob.refs ++ rest)) ∧ _
      cases Paged.lastIdOf s with
      | none => exact ⟨rfl, trivial, hi, hr, fun _ _ => rfl⟩
      | some id => exact ⟨rfl, trivial, hi, hr, fun _ _ => rfl⟩

end Radix.Blobs
