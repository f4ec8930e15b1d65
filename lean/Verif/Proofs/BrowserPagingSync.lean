import Verif.Proofs.BrowserPaging
import Verif.Props.BrowserLength

/-
What a `PagingFile` leaves in the file.
-/

set_option linter.unusedVariables false

namespace Radix.Browser.Paging
open Radix.Browser
open Radix.Spec (Contents overwrite nothing Unused reach Shows TopEnd pieces)

variable {cache : Cache} {name : Name}

theorem written_append : ∀ (a b : List Call) (v : Contents), written v (a ++ b) = written (written v a) b
  | [], b, v => rfl
  | c :: a, b, v => by
    cases c <;> exact written_append a b _

theorem writesOf_append : ∀ (a b : List Call), writesOf (a ++ b) = writesOf a ++ writesOf b
  | [], b => rfl
  | c :: a, b => by
    cases c
    case write => exact congrArg (_ :: ·) (writesOf_append a b)
    all_goals exact writesOf_append a b

/-- The writes do not overlap, and are below the current page. (`l`: length, `ps`: page size.) -/
def Clean (l ps : Nat) (ws : List (Nat × Nat)) : Prop := ws.Pairwise Apart ∧ ∀ x ∈ ws, x.1 + x.2 ≤ l / ps * ps

/-- Something of the current page was written, at most up to the length, and the file has the right length. -/
def Begun (l ps : Nat) (ws : List (Nat × Nat)) : Prop := TopEnd (pieces ws) (furthest ws) ∧ l / ps * ps < furthest ws ∧ furthest ws ≤ l

/-- The file is open, has only been written to with success, the writes are as `P` says; and the pages in memory are those of the file. -/
structure Tracks (P : Nat → Nat → List (Nat × Nat) → Prop) (cache : Cache) (name : Name) (w : Inner) (fc : List Call) : Prop where
  file : w.file = run (fresh cache name) fc
  only : OnlyWrites fc
  ok : WritesOk (log (fresh cache name) fc)
  isOpen : w.file.handle.isSome
  shape : P w.length w.pageSize (writesOf fc)
  pages : ∀ p page, w.get p = some page → p < w.length / w.pageSize ∧ page.length = w.pageSize ∧ Shows (written nothing fc) (p * w.pageSize) page

variable {P : Nat → Nat → List (Nat × Nat) → Prop}

/-- The file after one more call that is not a write. -/
theorem Tracks.reads {w : Inner} {fc : List Call} (h : Tracks P cache name w fc) {c : Call} (hw : ∀ o d evs, c ≠ .write o d evs)
    (ht : ∀ n evs, c ≠ .truncate n evs) (hp : ∀ d evs, c ≠ .put d evs) {w' : Inner} (hf : w'.file = (step w.file c).2) (hs : Same w w')
    (ho : w'.file.handle.isSome) : Tracks P cache name w' (fc ++ [c]) := by
  obtain ⟨s1, s2, s3, s4⟩ := hs
  have hwo : writesOf (fc ++ [c]) = writesOf fc := by
    rw [writesOf_append]
    cases c
    case write o d evs => exact absurd rfl (hw o d evs)
    all_goals exact List.append_nil _
  have hwr : written nothing (fc ++ [c]) = written nothing fc := by
    rw [written_append]
    cases c
    case write o d evs => exact absurd rfl (hw o d evs)
    all_goals rfl
  refine ⟨?_, ?_, ?_, ho, by rw [hwo, s3, s4]; exact h.shape, ?_⟩
  · rw [hf, run_append, h.file]; rfl
  · intro x hx
    rcases List.mem_append.1 hx with hx | hx
    · exact h.only x hx
    · rw [List.mem_singleton.1 hx]; exact ⟨ht, hp⟩
  · intro e he o d evs hc
    rw [log_append] at he
    rcases List.mem_append.1 he with he | he
    · exact h.ok e he o d evs hc
    · simp only [log, List.mem_singleton] at he
      rw [he] at hc
      exact absurd hc (hw o d evs)
  · intro p page hg
    rw [hwr, s3, s4]
    refine h.pages p page ?_
    unfold Inner.get at *
    rw [← s1]; exact hg

/-- The file after one more write with success. -/
theorem Tracks.write {w : Inner} {fc : List Call} (h : Tracks P cache name w fc) {o : Nat} {d : Bytes} {evs : List Ev}
    (hok : (step w.file (.write o d evs)).1 = .done (.ok ())) :
    run (fresh cache name) (fc ++ [.write o d evs]) = (step w.file (.write o d evs)).2 ∧ OnlyWrites (fc ++ [.write o d evs]) ∧
    WritesOk (log (fresh cache name) (fc ++ [.write o d evs])) ∧ (step w.file (.write o d evs)).2.handle.isSome ∧
    writesOf (fc ++ [.write o d evs]) = writesOf fc ++ [(o, d.length)] ∧
    written nothing (fc ++ [.write o d evs]) = overwrite (written nothing fc) o d := by
  refine ⟨by rw [run_append, h.file]; rfl, ?_, ?_, ?_, by rw [writesOf_append]; rfl, by rw [written_append]; rfl⟩
  · intro x hx
    rcases List.mem_append.1 hx with hx | hx
    · exact h.only x hx
    · rw [List.mem_singleton.1 hx]; exact ⟨by simp, by simp⟩
  · intro e he o' d' evs' hc
    rw [log_append] at he
    rcases List.mem_append.1 he with he | he
    · exact h.ok e he o' d' evs' hc
    · simp only [log, List.mem_singleton] at he
      rw [he, ← h.file]
      exact hok
  · have hs := h.isOpen
    obtain ⟨ch, hch⟩ := Option.isSome_iff_exists.1 hs
    revert hok
    unfold step
    rw [hch]
    dsimp only
    intro hok
    unfold after
    rw [Seen.done.inj hok]
    rfl

theorem shows_overwrite {v : Contents} {a o : Nat} {bs d : Bytes} (h : Shows v a bs) (ho : a + bs.length ≤ o) : Shows (overwrite v o d) a bs := by
  intro i hi
  rw [h i hi]
  unfold overwrite
  rw [if_neg (by omega)]

theorem shows_written {v : Contents} {o : Nat} {d : Bytes} : Shows (overwrite v o d) o d := by
  intro i hi
  unfold overwrite
  rw [if_pos (by omega), Nat.add_sub_cancel_left, List.getD_eq_getElem?_getD, List.getElem?_eq_getElem hi]
  rfl

/-- Only `length` grows. -/
theorem Tracks.grow {w w' : Inner} {fc : List Call} (h : Tracks P cache name w fc) (hf : w'.file = w.file) (hp : w'.fullPages = w.fullPages) (hs : w'.pageSize = w.pageSize)
    (hl : w.length ≤ w'.length) (hP : ∀ ws, P w.length w.pageSize ws → P w'.length w.pageSize ws) : Tracks P cache name w' fc := by
  have hd : w.length / w.pageSize ≤ w'.length / w.pageSize := Nat.div_le_div_right hl
  refine ⟨by rw [hf]; exact h.file, h.only, h.ok, by rw [hf]; exact h.isOpen, by rw [hs]; exact hP _ h.shape, ?_⟩
  intro p page hg
  have hg : w.get p = some page := by unfold Inner.get at *; rw [← hp]; exact hg
  obtain ⟨a, b, c⟩ := h.pages p page hg
  rw [hs]
  exact ⟨by omega, b, c⟩

theorem Clean.grow {l l' ps : Nat} (h : l ≤ l') (ws : List (Nat × Nat)) (hc : Clean l ps ws) : Clean l' ps ws :=
  ⟨hc.1, fun x hx => Nat.le_trans (hc.2 x hx) (Nat.mul_le_mul_right _ (Nat.div_le_div_right h))⟩

theorem Begun.grow {l l' ps : Nat} (h : l ≤ l') (hd : l' / ps = l / ps) (ws : List (Nat × Nat)) (hc : Begun l ps ws) : Begun l' ps ws :=
  ⟨hc.1, by rw [hd]; exact hc.2.1, Nat.le_trans hc.2.2 h⟩

/-- The file is tracked, by some history. -/
def Tracked (P : Nat → Nat → List (Nat × Nat) → Prop) (cache : Cache) (name : Name) (w : Inner) : Prop := ∃ fc, Tracks P cache name w fc

theorem fileWrite_file (w0 : Inner) (o : Nat) (d : Bytes) :
    Tri (fun w => w = w0) (fileWrite o d) (fun _ w => Same w0 w ∧ ∃ evs, (step w0.file (.write o d evs)).1 = .done (.ok ()) ∧ w.file = (step w0.file (.write o d evs)).2)
      (fun _ => True) := by
  unfold fileWrite
  refine Tri.bind (S := fun s w => Same w0 w ∧ ∃ evs, s = (step w0.file (.write o d evs)).1 ∧ w.file = (step w0.file (.write o d evs)).2) ?_ fun s => ?_
  · rintro w rfl
    exact ⟨Same.refl _, _, rfl, rfl⟩
  · match s with
    | .done (.ok ()) =>
      refine Tri.pure ?_
      rintro w ⟨h1, evs, h2, h3⟩
      exact ⟨h1, evs, h2.symm, h3⟩
    | .done .err => exact Tri.err fun w h => trivial
    | .done .panic => exact Tri.crash
    | .done .crash => exact Tri.crash
    | .opened => exact Tri.crash
    | .num _ => exact Tri.crash
    | .bytes _ => exact Tri.crash
    | .closed => exact Tri.crash

theorem closePage_tracked (w0 : Inner) (hb : Base w0) (ht : Tracked Clean cache name w0) :
    Tri (fun w => w = w0) closePage (fun _ w => Tracked Clean cache name w) (fun _ => True) := by
  obtain ⟨fc, ht⟩ := ht
  unfold closePage
  refine Tri.bind_self ?_
  refine Tri.bind_ok (pageNum_eq hb.pos _) ?_
  by_cases h : w0.length / w0.pageSize * w0.pageSize + w0.pageSize < 2 ^ 64
  · refine Tri.bind_ok (by rw [pageRange_eq hb.pos, if_pos h]) ?_
    refine Tri.bind (fileWrite_file w0 _ _) fun _ => ?_
    refine Tri.intro fun w hw => ?_
    obtain ⟨hs, evs, hw1, hw2⟩ := hw
    refine Tri.bind_update ?_
    dsimp only at hw1 hw2 ⊢
    refine Tri.bind_ok (pageNum_eq hb.pos _) ?_
    rw [next_div hb.pos, if_pos rfl]
    refine Tri.pure ?_
    intro v hv
    obtain ⟨s1, s2, s3, s4⟩ := hs
    obtain ⟨t1, t2, t3, t4, t5, t6⟩ := ht.write hw1
    have hvp : v.pageSize = w0.pageSize := by rw [hv]; exact s3
    have hvl : v.length = w0.length / w0.pageSize * w0.pageSize + w0.pageSize := by rw [hv]
    have hvf : v.file = w.file := by rw [hv]; rfl
    have hvg : ∀ q, v.get q = if w0.length / w0.pageSize = q then some w0.lastPage else w0.get q := by
      intro q
      have := get_insert w (w0.length / w0.pageSize) q w0.lastPage
      unfold Inner.get Inner.insert at *
      rw [hv, ← s1]; exact this
    refine ⟨_, ⟨by rw [t1, hvf, hw2], t2, t3, by rw [hvf, hw2]; exact t4, ⟨?_, ?_⟩, ?_⟩⟩
    · rw [t5, List.pairwise_append]
      refine ⟨ht.shape.1, List.pairwise_singleton _ _, fun a ha b hb' => ?_⟩
      rw [List.mem_singleton.1 hb']
      exact Or.inl (ht.shape.2 a ha)
    · rw [t5, hvp, hvl, next_div hb.pos, Nat.succ_mul]
      intro x hx
      rcases List.mem_append.1 hx with hx | hx
      · have := ht.shape.2 x hx; omega
      · rw [List.mem_singleton.1 hx]
        dsimp only
        rw [hb.last]
        exact Nat.le_refl _
    · rw [t6, hvp, hvl, next_div hb.pos]
      intro p page hg
      rw [hvg] at hg
      split at hg
      · rename_i hpe
        cases hg
        refine ⟨by omega, hb.last, ?_⟩
        rw [← hpe]
        exact shows_written
      · obtain ⟨a, b, c⟩ := ht.pages p page hg
        refine ⟨by omega, b, shows_overwrite c ?_⟩
        rw [b, ← Nat.succ_mul]
        exact Nat.mul_le_mul_right _ a
  · exact Tri.bind_panic (by rw [pageRange_eq hb.pos, if_neg h])

theorem append_tracked (w0 : Inner) (hb : Base w0) (data : Bytes) (ht : Tracked Clean cache name w0) :
    Tri (fun w => w = w0) (append data) (fun _ w => Tracked Clean cache name w) (fun _ => True) := by
  unfold append
  refine Tri.bind_self ?_
  refine Tri.bind (Tri.ensure fun w h _ => trivial) fun _ => ?_
  refine Tri.intro fun w h => ?_
  obtain ⟨h1, rfl⟩ := h
  have h1 : data.length ≤ w.pageSize := by simpa using h1
  have hs := hb.small
  refine Tri.bind_ok (a := data.length + 8) (by unfold u64; rw [if_pos (by omega)]) ?_
  refine Tri.bind_self ?_
  by_cases h64 : w.length / w.pageSize * w.pageSize + w.pageSize < 2 ^ 64
  · refine Tri.bind_ok (a := w.length / w.pageSize * w.pageSize + w.pageSize - w.length) (by unfold remaining; rw [pageRange_eq hb.pos, if_pos h64]; rfl) ?_
    refine Tri.bind (S := fun _ v => Tracked Clean cache name v) ?_ fun _ => ?_
    · split
      · exact closePage_tracked w hb ht
      · exact Tri.pure fun v hv => hv ▸ ht
    · refine Tri.intro fun v hv => ?_
      refine Tri.bind (alignLength_tri v) fun _ => ?_
      refine Tri.bind_self ?_
      dsimp only
      have hal : v.length ≤ aligned v.length := by unfold aligned; omega
      rcases hin : within (aligned v.length) v.pageSize with o | _ | _ | _
      · refine Tri.bind_ok rfl ?_
        split
        · rcases hu : u64 (aligned v.length + data.length) with l | _ | _ | _
          · refine Tri.bind_ok rfl ?_
            refine Tri.bind_update ?_
            refine Tri.pure ?_
            intro w' hw'
            obtain ⟨fc, hv⟩ := hv
            obtain ⟨rfl, -⟩ := u64_ok hu
            have hle : v.length ≤ w'.length := by rw [hw']; show _ ≤ aligned v.length + data.length; omega
            exact ⟨fc, hv.grow (by rw [hw']) (by rw [hw']) (by rw [hw']) hle (Clean.grow hle)⟩
          · exact absurd hu (u64_ne _)
          · exact Tri.bind_panic rfl
          · intro _ _; trivial
        · exact Tri.panic
      · intro _ _; trivial
      · exact Tri.bind_panic rfl
      · intro _ _; trivial
  · exact Tri.bind_panic (by unfold remaining; rw [pageRange_eq hb.pos, if_neg h64]; rfl)

theorem after_isSome {α : Type} {r : Out α × File} (h1 : r.1 ≠ .panic) (h2 : r.1 ≠ .crash) : (after r).handle.isSome := by
  obtain ⟨x, y⟩ := r
  unfold after
  match x, h1, h2 with
  | .ok _, _, _ => rfl
  | .err, _, _ => rfl
  | .panic, h1, _ => exact absurd rfl h1
  | .crash, _, h2 => exact absurd rfl h2

theorem fileRead_tracked (hp : Plain name) (hu : Unused cache name) (w0 : Inner) {fc : List Call} (ht : Tracks P cache name w0 fc) (r : Range) :
    Tri (fun w => w = w0) (fileRead r)
      (fun b w => Same w0 w ∧ ∃ fc', Tracks P cache name w fc' ∧ b.length = r.2 - r.1 ∧ Shows (written nothing fc') r.1 b) (fun w => Same w0 w ∧ Tracked P cache name w) := by
  unfold fileRead
  refine Tri.bind (S := fun s w => Same w0 w ∧ ∃ evs, s = (step w0.file (.read r.1 r.2 evs)).1 ∧ w.file = (step w0.file (.read r.1 r.2 evs)).2) ?_ fun s => ?_
  · rintro w rfl
    exact ⟨Same.refl _, _, rfl, rfl⟩
  · have hopen : ∀ (evs : List Ev) (x : Out Bytes), .bytes x = (step w0.file (.read r.1 r.2 evs)).1 → x ≠ .panic → x ≠ .crash →
        (step w0.file (.read r.1 r.2 evs)).2.handle.isSome := by
      intro evs x hx h1 h2
      obtain ⟨ch, hch⟩ := Option.isSome_iff_exists.1 ht.isOpen
      revert hx
      unfold step
      rw [hch]
      dsimp only
      intro hx
      have := Seen.bytes.inj hx
      exact after_isSome (by rw [← this]; exact h1) (by rw [← this]; exact h2)
    match s with
    | .bytes (.ok b) =>
      refine Tri.pure ?_
      rintro w ⟨h1, evs, h2, h3⟩
      refine ⟨h1, _, ht.reads (c := .read r.1 r.2 evs) (by simp) (by simp) (by simp) h3 h1 (by rw [h3]; exact hopen evs _ h2 (by simp) (by simp)), ?_⟩
      rw [ht.file] at h2
      obtain ⟨e1, e2⟩ := C44_last_written_partial hp hu ht.only ht.ok h2.symm
      refine ⟨e1, fun i hi => ?_⟩
      rw [written_append]
      exact e2 i (by omega)
    | .bytes .err =>
      refine Tri.err ?_
      rintro w ⟨h1, evs, h2, h3⟩
      exact ⟨h1, _, ht.reads (c := .read r.1 r.2 evs) (by simp) (by simp) (by simp) h3 h1 (by rw [h3]; exact hopen evs _ h2 (by simp) (by simp))⟩
    | .bytes .panic => exact Tri.crash
    | .bytes .crash => exact Tri.crash
    | .opened => exact Tri.crash
    | .num _ => exact Tri.crash
    | .done _ => exact Tri.crash
    | .closed => exact Tri.crash

theorem loadPage_tracked (hp : Plain name) (hu : Unused cache name) (w0 : Inner) (hb : Base w0) (ht : Tracked P cache name w0) (start : Nat) :
    Tri (fun w => w = w0) (loadPage start) (fun _ w => Tracked P cache name w) (fun w => Tracked P cache name w) := by
  unfold loadPage
  refine Tri.bind_self ?_
  refine Tri.bind_ok (pageNum_eq hb.pos _) ?_
  refine Tri.bind_ok (pageNum_eq hb.pos _) ?_
  split
  · by_cases h : w0.length / w0.pageSize * w0.pageSize + w0.pageSize < 2 ^ 64
    · refine Tri.bind_ok (by rw [within_eq hb.pos hb.small, if_pos h]) ?_
      rw [if_pos (by rw [hb.last]; exact Nat.le_of_lt (Nat.mod_lt _ hb.pos))]
      exact Tri.pure fun w h => by rw [h]; exact ht
    · exact Tri.bind_panic (by rw [within_eq hb.pos hb.small, if_neg h])
  · split
    · exact Tri.pure fun w h => by rw [h]; exact ht
    · rename_i hn
      refine Tri.bind (Tri.ensure fun w h _ => by rw [h]; exact ht) fun _ => ?_
      refine Tri.intro fun w hw => ?_
      obtain ⟨hlt, rfl⟩ := hw
      have hlt : start / w.pageSize < w.length / w.pageSize := by simpa using hlt
      by_cases h : start / w.pageSize * w.pageSize + w.pageSize < 2 ^ 64
      · refine Tri.bind_ok (by rw [pageRange_eq hb.pos, if_pos h]) ?_
        obtain ⟨fc, ht⟩ := ht
        refine Tri.bind ((fileRead_tracked hp hu w ht _).weaken (fun _ h => h) (fun _ _ h => h) fun w h => h.2) fun page => ?_
        refine Tri.intro fun v hv => ?_
        obtain ⟨hs, fc', t, l, sh⟩ := hv
        dsimp only at l sh
        refine Tri.bind_update ?_
        refine Tri.pure ?_
        intro v' hv'
        rw [hv']
        have hps : v.pageSize = w.pageSize := hs.2.2.1
        have hln : v.length = w.length := hs.2.2.2
        refine ⟨fc', t.file, t.only, t.ok, t.isOpen, t.shape, fun p pg hg => ?_⟩
        rw [get_insert] at hg
        split at hg
        · rename_i hpe
          cases hg
          rw [← hpe]
          refine ⟨?_, ?_, ?_⟩
          · show _ < v.length / v.pageSize; rw [hps, hln]; exact hlt
          · show _ = v.pageSize; omega
          · show Shows _ (_ * v.pageSize) _; rw [hps]; exact sh
        · exact t.pages p pg hg
      · exact Tri.bind_panic (by rw [pageRange_eq hb.pos, if_neg h])

theorem load_tracked (hp : Plain name) (hu : Unused cache name) (w0 : Inner) (hb : Base w0) (ht : Tracked P cache name w0) (start : Nat) :
    Tri (fun w => w = w0) (loadPrefixed start) (fun _ w => Tracked P cache name w) (fun w => Tracked P cache name w) := by
  unfold loadPrefixed
  refine Tri.bind_self ?_
  by_cases h : start / w0.pageSize * w0.pageSize + w0.pageSize < 2 ^ 64
  · refine Tri.bind_ok (by rw [within_eq hb.pos hb.small, if_pos h]) ?_
    refine Tri.bind (loadPage_tracked hp hu w0 hb ht start) fun page => ?_
    refine Tri.bind (Tri.ensure fun w h _ => h) fun _ => ?_
    dsimp only
    refine Tri.bind (Tri.ensure fun w h _ => h.2) fun _ => ?_
    exact Tri.pure fun w h => h.2.2
  · exact Tri.bind_panic (by rw [within_eq hb.pos hb.small, if_neg h])

theorem pstep_tracked (hp : Plain name) (hu : Unused cache name) {w w' : Inner} {c : PCall} {r : Seen} (hb : Base w) (ht : Tracked Clean cache name w)
    (h : pstep w c = (r, some w')) (hc : c ≠ .sync) (hr : ∀ d, c = .put d → r ≠ .bytes .err) : Tracked Clean cache name w' := by
  cases c with
  | put data =>
    have h1 : Tri (fun v => v = w) (appendPrefixed data) (fun _ w => Tracked Clean cache name w) (fun _ => True) := by
      unfold appendPrefixed
      split
      · exact append_tracked w hb _ ht
      · exact Tri.panic
    obtain ⟨h1, h2⟩ := tri_apply h1
    unfold pstep at h
    dsimp only at h
    split at h
    · rename_i n v e
      cases h
      exact h1 _ _ e
    · rename_i v e
      cases h
      exact absurd rfl (hr data rfl)
    · cases h
    · cases h
  | get id =>
    obtain ⟨h1, h2⟩ := tri_apply (load_tracked hp hu w hb ht (ofBE id))
    unfold pstep at h
    dsimp only at h
    split at h
    · split at h
      · rename_i n v e
        cases h
        exact h1 _ _ e
      · rename_i v e
        cases h
        exact h2 _ e
      · cases h
      · cases h
    · cases h
      exact ht
  | sync => exact absurd rfl hc

theorem prun_tracked (hp : Plain name) (hu : Unused cache name) : ∀ (cs : List PCall) {w w' : Inner}, Base w → Tracked Clean cache name w → prun w cs = some w' →
    (∀ c ∈ cs, c ≠ .sync) → (∀ d, (.put d, .bytes .err) ∉ plog w cs) → Tracked Clean cache name w'
  | [], w, w', hb, ht, h, _, _ => by cases h; exact ht
  | c :: cs, w, w', hb, ht, h, hc, hr => by
    unfold prun at h
    rcases e : pstep w c with ⟨r, _ | v⟩
    · rw [e] at h; cases h
    · rw [e] at h
      unfold plog at hr
      rw [e] at hr
      dsimp only at hr
      refine prun_tracked hp hu cs (pstep_keeps hb e).1 (pstep_tracked hp hu hb ht e (hc c (by simp)) fun d hd hre => ?_) h (fun x hx => hc x (by simp [hx])) fun d hm =>
        hr d (List.mem_cons_of_mem _ hm)
      subst hd hre
      exact hr d List.mem_cons_self

/-! ### Opening -/

theorem tracked_start (ps : Nat) (coming : List (List Ev)) : Tracks Clean cache name ⟨run (fresh cache name) [.reopen], coming, [], [], ps, 0⟩ [.reopen] := by
  refine ⟨rfl, ?_, ?_, rfl, ⟨List.Pairwise.nil, ?_⟩, ?_⟩
  · intro c hc; rw [List.mem_singleton.1 hc]; exact ⟨by simp, by simp⟩
  · intro e he o d evs hc
    simp only [log, List.mem_singleton] at he
    rw [he] at hc; cases hc
  · intro x hx; cases hx
  · intro p page h; cases h

theorem new_tracked (hp : Plain name) (hu : Unused cache name) (w0 : Inner) (hf : w0.fullPages = []) (hl : w0.length = 0) (ht : Tracked Clean cache name w0) :
    Tri (fun w => w = w0) new (fun _ w => Tracked Clean cache name w) (fun _ => True) := by
  obtain ⟨fc, ht⟩ := ht
  unfold new
  refine Tri.bind_self ?_
  refine Tri.bind (S := fun _ w => Same w0 w ∧ Tracked Clean cache name w) ?_ fun n => ?_
  · unfold fileLength
    refine Tri.bind (S := fun s w => Same w0 w ∧ Tracked Clean cache name w) ?_ fun s => ?_
    · rintro w rfl
      obtain ⟨ch, hch⟩ := Option.isSome_iff_exists.1 ht.isOpen
      have hst : (step w.file .length).2 = w.file := by unfold step; rw [hch]
      refine ⟨Same.refl _, fc ++ [.length], ht.reads (w' := { w with file := (step w.file .length).2, coming := w.coming.tail }) (c := .length) (by simp) (by simp) (by simp) rfl ⟨rfl, rfl, rfl, rfl⟩ ?_⟩
      show (step w.file .length).2.handle.isSome
      rw [hst]; exact ht.isOpen
    · match s with
      | .num n => exact Tri.pure fun w h => h
      | .bytes _ => exact Tri.crash
      | .opened => exact Tri.crash
      | .done _ => exact Tri.crash
      | .closed => exact Tri.crash
  · refine Tri.intro fun w hw => ?_
    obtain ⟨hs, fc', ht'⟩ := hw
    rcases hr : pageRange n w0.pageSize with r | _ | _ | _
    · refine Tri.bind_ok rfl ?_
      refine Tri.bind ((fileRead_tracked hp hu w ht' _).weaken (fun _ h => h) (fun _ _ h => h) fun _ _ => trivial) fun b => ?_
      split
      · refine Tri.update ?_
        rintro v ⟨hs', fc'', ht'', -⟩
        have hle : v.length ≤ n := by rw [hs'.2.2.2, hs.2.2.2, hl]; exact Nat.zero_le _
        refine ⟨fc'', ht''.grow rfl ?_ rfl hle (Clean.grow hle)⟩
        show [] = v.fullPages; rw [hs'.1, hs.1, hf]
      · exact Tri.panic
    · intro _ _; trivial
    · exact Tri.bind_panic rfl
    · intro _ _; trivial

theorem open_tracked (hp : Plain name) (hu : Unused cache name) {coming : List (List Ev)} {ps : Nat} {w : Inner}
    (h : openPaging (run (fresh cache name) [.reopen]) coming ps = some w) : Tracked Clean cache name w := by
  unfold openPaging at h
  have h1 := (tri_apply (new_tracked hp hu ⟨run (fresh cache name) [.reopen], coming, [], [], ps, 0⟩ rfl rfl ⟨_, tracked_start ps coming⟩)).1
  split at h
  · rename_i v e
    cases h
    exact h1 _ _ e
  · cases h

/-! ### Opening again -/

theorem reach_only : ∀ {cs : List Call} (m : Nat), OnlyWrites cs → reach m cs ≤ max m (furthest (writesOf cs))
  | [], m, _ => by show m ≤ _; omega
  | c :: cs, m, hc => by
    have hc' : OnlyWrites cs := fun x hx => hc x (by simp [hx])
    cases c with
    | truncate n evs => exact absurd rfl ((hc _ (by simp)).1 n evs)
    | put d evs => exact absurd rfl ((hc _ (by simp)).2 d evs)
    | write o d evs =>
      have := reach_only (max m (o + d.length)) hc'
      show reach (max m (o + d.length)) cs ≤ max m (max (o + d.length) (furthest (writesOf cs)))
      omega
    | reopen => exact reach_only (cs := cs) m hc'
    | read a b evs => exact reach_only (cs := cs) m hc'
    | length => exact reach_only (cs := cs) m hc'
    | get id evs => exact reach_only (cs := cs) m hc'

/-- An open file with a history of successful writes, and with the right length. -/
structure Written (cache : Cache) (name : Name) (f : World) (fc : List Call) : Prop where
  file : f = run (fresh cache name) fc
  only : OnlyWrites fc
  ok : WritesOk (log (fresh cache name) fc)
  isOpen : f.handle.isSome
  top : TopEnd (pieces (writesOf fc)) (furthest (writesOf fc))

/-- Writes that do not overlap give the right length. -/
theorem top_apart {ws : List (Nat × Nat)} (h : ws.Pairwise Apart) : TopEnd (pieces ws) (furthest ws) := by
  have hm := mem_pieces_apart ws h
  have hsp := foldr_max_spec (ws := ws)
  rcases hsp.2 with h0 | ⟨x, hx, hxe⟩
  · subst h0; exact Or.inl ⟨rfl, rfl⟩
  · refine Or.inr ⟨⟨0, x.1, x.2⟩, (hm _).2 ⟨x, hx, rfl⟩, fun q hq => ?_, fun q hq _ => ?_, hxe.symm⟩
    · obtain ⟨y, hy, rfl⟩ := (hm q).1 hq; exact Nat.le_refl _
    · obtain ⟨y, hy, rfl⟩ := (hm q).1 hq
      have := hsp.1 y hy
      dsimp only
      omega

theorem Written.length (hp : Plain name) (hu : Unused cache name) {file : World} {fc : List Call} (h : Written cache name file fc) :
    step file .length = (.num (furthest (writesOf fc)), file) := by
  obtain ⟨ch, hch⟩ := Option.isSome_iff_exists.1 h.isOpen
  have e : ∃ n, step file .length = (.num n, file) := by unfold step; rw [hch]; exact ⟨_, rfl⟩
  obtain ⟨n, e⟩ := e
  have : (step (run (fresh cache name) fc) .length).1 = .num n := by rw [← h.file, e]
  rw [e, topEnd_unique (C45_exact_partial hp hu h.only h.ok this) h.top]

/-- A call that is not a write. -/
theorem Written.reads {file : World} {fc : List Call} (h : Written cache name file fc) {c : Call} (hw : ∀ o d evs, c ≠ .write o d evs)
    (ht : ∀ n evs, c ≠ .truncate n evs) (hp : ∀ d evs, c ≠ .put d evs) (ho : (step file c).2.handle.isSome) : Written cache name (step file c).2 (fc ++ [c]) := by
  have hwo : writesOf (fc ++ [c]) = writesOf fc := by
    rw [writesOf_append]
    cases c
    case write o d evs => exact absurd rfl (hw o d evs)
    all_goals exact List.append_nil _
  refine ⟨?_, ?_, ?_, ho, by rw [hwo]; exact h.top⟩
  · rw [run_append, h.file]; rfl
  · intro x hx
    rcases List.mem_append.1 hx with hx | hx
    · exact h.only x hx
    · rw [List.mem_singleton.1 hx]; exact ⟨ht, hp⟩
  · intro e he o d evs hc
    rw [log_append] at he
    rcases List.mem_append.1 he with he | he
    · exact h.ok e he o d evs hc
    · simp only [log, List.mem_singleton] at he
      rw [he] at hc
      exact absurd hc (hw o d evs)

theorem Written.read (hp : Plain name) (hu : Unused cache name) {file : World} {fc : List Call} (h : Written cache name file fc) {a b : Nat}
    (hs : furthest (writesOf fc) < 2 ^ 31) (hb : b ≤ furthest (writesOf fc)) :
    ∃ bs file', step file (.read a b []) = (.bytes (.ok bs), file') ∧ Written cache name file' (fc ++ [.read a b []]) ∧ bs.length = b - a ∧ Shows (written nothing fc) a bs := by
  have ho : (run (fresh cache name) fc).handle.isSome := by rw [← h.file]; exact h.isOpen
  obtain ⟨-, -, -, n, hn, hr⟩ := C44_succeeds_partial hp hu (cs := fc) (evs := []) (by intro e he; cases he) ho
  have hn' : n = furthest (writesOf fc) := by
    have := h.length hp hu
    rw [h.file] at this
    rw [this] at hn
    exact (Seen.num.inj hn).symm
  obtain ⟨bs, hbs⟩ := hr a b (by have := reach_only 0 h.only; omega) (by omega)
  obtain ⟨l1, l2⟩ := C44_last_written_partial hp hu h.only h.ok hbs
  rw [← h.file] at hbs
  rcases e : step file (.read a b []) with ⟨x, y⟩
  rw [e] at hbs
  cases hbs
  refine ⟨bs, y, rfl, ?_, l1, fun i hi => l2 i (by omega)⟩
  have := h.reads (c := .read a b []) (by simp) (by simp) (by simp) ?_
  · rw [e] at this; exact this
  · obtain ⟨ch, hch⟩ := Option.isSome_iff_exists.1 h.isOpen
    revert e
    unfold step
    rw [hch]
    dsimp only
    intro e
    have := Seen.bytes.inj (congrArg Prod.fst e)
    exact after_isSome (by rw [this]; simp) (by rw [this]; simp)

theorem shows_eq {v : Contents} {a : Nat} {x y : Bytes} (hx : Shows v a x) (hy : Shows v a y) (hl : x.length = y.length) : x = y := by
  apply List.ext_getElem? fun i => ?_
  by_cases hi : i < x.length
  · rw [hx i hi, hy i (by omega)]
  · rw [List.getElem?_eq_none (by omega), List.getElem?_eq_none (by omega)]

theorem furthest_append (a : List (Nat × Nat)) (o l : Nat) (h : ∀ x ∈ a, x.1 + x.2 ≤ o + l) : furthest (a ++ [(o, l)]) = o + l := by
  unfold furthest
  induction a with
  | nil => show max (o + l) 0 = _; omega
  | cons x a ih =>
    rw [List.cons_append, List.foldr_cons, ih fun y hy => h y (by simp [hy])]
    have := h x (by simp)
    omega

/-- Nothing of the current page was written, or the file has the right length anyway. -/
def Fine (l ps : Nat) (ws : List (Nat × Nat)) : Prop := Clean l ps ws ∨ Begun l ps ws

theorem Tracked.fine {w : Inner} (h : Tracked Clean cache name w) : Tracked Fine cache name w := by
  obtain ⟨fc, h⟩ := h
  exact ⟨fc, h.file, h.only, h.ok, h.isOpen, Or.inl h.shape, h.pages⟩

theorem Fine.below {l ps : Nat} {ws : List (Nat × Nat)} (h : Fine l ps ws) : ∀ x ∈ ws, x.1 + x.2 ≤ l := by
  intro x hx
  rcases h with h | h
  · exact Nat.le_trans (h.2 x hx) (Nat.div_mul_le_self _ _)
  · exact Nat.le_trans (foldr_max_spec.1 x hx) h.2.2

/-- The write of `sync`. -/
theorem Fine.sync {l ps : Nat} {ws : List (Nat × Nat)} (h : Fine l ps ws) :
    furthest (ws ++ [(l / ps * ps, l % ps)]) = l ∧ TopEnd (pieces (ws ++ [(l / ps * ps, l % ps)])) l ∧ Fine l ps (ws ++ [(l / ps * ps, l % ps)]) := by
  have hmod := sub_div_mul l ps
  have hle := Nat.div_mul_le_self l ps
  have hf : furthest (ws ++ [(l / ps * ps, l % ps)]) = l := by
    rw [furthest_append _ _ _ fun x hx => by have := h.below x hx; omega]
    omega
  have ht : TopEnd (pieces (ws ++ [(l / ps * ps, l % ps)])) l := by
    rcases h with h | h
    · rw [← hf.trans (rfl : l = l)]
      have := top_apart (ws := ws ++ [(l / ps * ps, l % ps)]) ?_
      · rw [hf] at this ⊢; exact this
      · rw [List.pairwise_append]
        refine ⟨h.1, List.pairwise_singleton _ _, fun a ha b hb' => ?_⟩
        rw [List.mem_singleton.1 hb']
        exact Or.inl (h.2 a ha)
    · have := top_cover (w := (l / ps * ps, l % ps)) h.1 (m := furthest ws) (fun p hp => by
        obtain ⟨x, hx, h4⟩ := pieces_inside _ p hp
        have := foldr_max_spec.1 x hx
        unfold furthest
        omega) h.2.1 (by have := h.2.2; dsimp only; omega)
      have e : pieces (ws ++ [(l / ps * ps, l % ps)]) = Radix.Spec.stack (pieces ws) (l / ps * ps, l % ps) := by unfold pieces; rw [List.foldl_append]; rfl
      rw [e]
      dsimp only at this
      rw [show l / ps * ps + l % ps = l by omega] at this
      exact this
  refine ⟨hf, ht, ?_⟩
  by_cases hz : l / ps * ps < l
  · exact Or.inr ⟨by rw [hf]; exact ht, by rw [hf]; exact hz, by rw [hf]; exact Nat.le_refl _⟩
  · rcases h with h | h
    · refine Or.inl ⟨?_, fun x hx => ?_⟩
      · rw [List.pairwise_append]
        refine ⟨h.1, List.pairwise_singleton _ _, fun a ha b hb' => ?_⟩
        rw [List.mem_singleton.1 hb']
        exact Or.inl (h.2 a ha)
      · rcases List.mem_append.1 hx with hx | hx
        · exact h.2 x hx
        · rw [List.mem_singleton.1 hx]; dsimp only; omega
    · have := h.2.1
      have := h.2.2
      omega

/-- What `sync` does with the file. -/
theorem sync_file {w1 w2 : Inner} (hb : Base w1) (hs : pstep w1 .sync = (.done (.ok ()), some w2)) :
    Same w1 w2 ∧ ∃ evs, (step w1.file (.write (w1.length / w1.pageSize * w1.pageSize) (w1.lastPage.take (w1.length % w1.pageSize)) evs)).1 = .done (.ok ()) ∧
      w2.file = (step w1.file (.write (w1.length / w1.pageSize * w1.pageSize) (w1.lastPage.take (w1.length % w1.pageSize)) evs)).2 := by
  have hlt := Nat.mod_lt w1.length hb.pos
  have hla := hb.last
  have htri : Tri (fun v => v = w1) sync (fun _ w => Same w1 w ∧ ∃ evs, (step w1.file (.write (w1.length / w1.pageSize * w1.pageSize) (w1.lastPage.take (w1.length % w1.pageSize)) evs)).1 = .done (.ok ()) ∧
    w.file = (step w1.file (.write (w1.length / w1.pageSize * w1.pageSize) (w1.lastPage.take (w1.length % w1.pageSize)) evs)).2) (fun _ => True) := by
    unfold sync
    refine Tri.bind_self ?_
    refine Tri.bind_ok (pageNum_eq hb.pos _) ?_
    by_cases h64 : w1.length / w1.pageSize * w1.pageSize + w1.pageSize < 2 ^ 64
    · refine Tri.bind_ok (by rw [pageRange_eq hb.pos, if_pos h64]) ?_
      refine Tri.bind_ok (by rw [within_eq hb.pos hb.small, if_pos h64]) ?_
      rw [if_pos (by omega)]
      exact fileWrite_file w1 _ _
    · exact Tri.bind_panic (by rw [pageRange_eq hb.pos, if_neg h64])
  unfold pstep at hs
  dsimp only at hs
  split at hs
  · rename_i v e
    cases hs
    exact (tri_apply htri).1 _ _ e
  · cases hs
  · cases hs
  · cases hs

/-- Appending on the same page. -/
theorem append_fine (w0 : Inner) (hb : Base w0) (data : Bytes) (ht : Tracked Fine cache name w0) :
    Tri (fun w => w = w0) (append data) (fun _ w => w.length / w.pageSize = w0.length / w0.pageSize → Tracked Fine cache name w) (fun _ => True) := by
  unfold append
  refine Tri.bind_self ?_
  refine Tri.bind (Tri.ensure fun w h _ => trivial) fun _ => ?_
  refine Tri.intro fun w h => ?_
  obtain ⟨h1, rfl⟩ := h
  have h1 : data.length ≤ w.pageSize := by simpa using h1
  have hs := hb.small
  refine Tri.bind_ok (a := data.length + 8) (by unfold u64; rw [if_pos (by omega)]) ?_
  refine Tri.bind_self ?_
  by_cases h64 : w.length / w.pageSize * w.pageSize + w.pageSize < 2 ^ 64
  · refine Tri.bind_ok (a := w.length / w.pageSize * w.pageSize + w.pageSize - w.length) (by unfold remaining; rw [pageRange_eq hb.pos, if_pos h64]; rfl) ?_
    refine Tri.bind (S := fun _ v => v.pageSize = w.pageSize ∧ (v.length / w.pageSize = w.length / w.pageSize + 1 ∨ v.length = w.length ∧ Tracked Fine cache name v)) ?_ fun _ => ?_
    · split
      · refine (closePage_tri w hb).weaken (fun _ h => h) (fun _ v h => ⟨h.2.2.1, Or.inl ?_⟩) fun _ _ => trivial
        rw [h.2.2.2, next_div hb.pos]
      · exact Tri.pure fun v hv => by subst hv; exact ⟨rfl, Or.inr ⟨rfl, ht⟩⟩
    · refine Tri.intro fun v hv => ?_
      refine Tri.bind (alignLength_tri v) fun _ => ?_
      refine Tri.bind_self ?_
      dsimp only
      have hal : v.length ≤ aligned v.length := by unfold aligned; omega
      rcases hin : within (aligned v.length) v.pageSize with o | _ | _ | _
      · refine Tri.bind_ok rfl ?_
        split
        · rcases hu : u64 (aligned v.length + data.length) with l | _ | _ | _
          · refine Tri.bind_ok rfl ?_
            refine Tri.bind_update ?_
            refine Tri.pure ?_
            intro w' hw' hpage
            obtain ⟨rfl, -⟩ := u64_ok hu
            have hle : v.length ≤ w'.length := by rw [hw']; show _ ≤ aligned v.length + data.length; omega
            have hps : w'.pageSize = v.pageSize := by rw [hw']
            obtain ⟨hvp, hv⟩ := hv
            have hdiv : v.length / w.pageSize ≤ w'.length / w.pageSize := Nat.div_le_div_right hle
            rw [hps, hvp] at hpage
            rcases hv with hv | ⟨hvl, fc, hv⟩
            · omega
            · refine ⟨fc, hv.grow (by rw [hw']) (by rw [hw']) (by rw [hw']) hle fun ws h => ?_⟩
              rcases h with h | h
              · exact Or.inl (Clean.grow hle ws h)
              · exact Or.inr (Begun.grow hle (by rw [hvp, hpage, hvl]) ws h)
          · exact absurd hu (u64_ne _)
          · exact Tri.bind_panic rfl
          · intro _ _; trivial
        · exact Tri.panic
      · intro _ _; trivial
      · exact Tri.bind_panic rfl
      · intro _ _; trivial
  · exact Tri.bind_panic (by unfold remaining; rw [pageRange_eq hb.pos, if_neg h64]; rfl)

theorem pstep_fine (hp : Plain name) (hu : Unused cache name) {w w' : Inner} {c : PCall} {r : Seen} (hb : Base w) (ht : Tracked Fine cache name w)
    (h : pstep w c = (r, some w')) (hr : ∀ d, c = .put d → r ≠ .bytes .err) (hr' : c = .sync → r ≠ .done .err)
    (hpage : w'.length / w'.pageSize = w.length / w.pageSize) : Tracked Fine cache name w' := by
  cases c with
  | put data =>
    have h1 : Tri (fun v => v = w) (appendPrefixed data) (fun _ v => v.length / v.pageSize = w.length / w.pageSize → Tracked Fine cache name v) (fun _ => True) := by
      unfold appendPrefixed
      split
      · exact append_fine w hb _ ht
      · exact Tri.panic
    obtain ⟨h1, h2⟩ := tri_apply h1
    unfold pstep at h
    dsimp only at h
    split at h
    · rename_i n v e
      cases h
      exact h1 _ _ e hpage
    · rename_i v e
      cases h
      exact absurd rfl (hr data rfl)
    · cases h
    · cases h
  | get id =>
    obtain ⟨h1, h2⟩ := tri_apply (load_tracked hp hu w hb ht (ofBE id))
    unfold pstep at h
    dsimp only at h
    split at h
    · split at h
      · rename_i n v e
        cases h
        exact h1 _ _ e
      · rename_i v e
        cases h
        exact h2 _ e
      · cases h
      · cases h
    · cases h
      exact ht
  | sync =>
    have hrok : r = .done (.ok ()) := by
      have h' := h
      unfold pstep at h'
      dsimp only at h'
      split at h'
      · cases h'; rfl
      · cases h'; exact absurd rfl (hr' rfl)
      · cases h'
      · cases h'
    subst hrok
    obtain ⟨⟨s1, s2, s3, s4⟩, evs, hok, hfile⟩ := sync_file hb h
    obtain ⟨fc, ht⟩ := ht
    obtain ⟨t1, t2, t3, t4, t5, t6⟩ := ht.write hok
    have htl : (w.lastPage.take (w.length % w.pageSize)).length = w.length % w.pageSize := by
      have := Nat.mod_lt w.length hb.pos
      rw [List.length_take, hb.last]; omega
    refine ⟨_, ⟨by rw [t1, hfile], t2, t3, by rw [hfile]; exact t4, ?_, fun p page hg => ?_⟩⟩
    · rw [t5, s3, s4, htl]; exact ht.shape.sync.2.2
    · have hg : w.get p = some page := by unfold Inner.get at *; rw [← s1]; exact hg
      obtain ⟨a, b, c⟩ := ht.pages p page hg
      rw [s3, s4, t6]
      refine ⟨a, b, shows_overwrite c ?_⟩
      rw [b, ← Nat.succ_mul]
      exact Nat.mul_le_mul_right _ a

theorem prun_fine (hp : Plain name) (hu : Unused cache name) : ∀ (cs : List PCall) {w w' : Inner}, Base w → Tracked Fine cache name w → prun w cs = some w' →
    (∀ d, (.put d, .bytes .err) ∉ plog w cs) → (.sync, .done .err) ∉ plog w cs →
    (∀ a b v, cs = a ++ b → prun w a = some v → v.length / v.pageSize = w.length / w.pageSize) → Tracked Fine cache name w'
  | [], w, w', hb, ht, h, _, _, _ => by cases h; exact ht
  | c :: cs, w, w', hb, ht, h, hr, hr', hpage => by
    unfold prun at h
    rcases e : pstep w c with ⟨r, _ | v⟩
    · rw [e] at h; cases h
    · rw [e] at h
      unfold plog at hr hr'
      rw [e] at hr hr'
      dsimp only at hr hr'
      have hv : v.length / v.pageSize = w.length / w.pageSize := hpage [c] cs v rfl (by simp [prun, e])
      refine prun_fine hp hu cs (pstep_keeps hb e).1 (pstep_fine hp hu hb ht e (fun d hd hre => ?_) (fun hd hre => ?_) hv) h
        (fun d hm => hr d (List.mem_cons_of_mem _ hm)) (fun hm => hr' (List.mem_cons_of_mem _ hm)) fun a b v' hab hva => ?_
      · subst hd hre
        exact hr d List.mem_cons_self
      · subst hd hre
        exact hr' List.mem_cons_self
      · rw [hv]
        exact hpage (c :: a) b v' (by rw [hab]; rfl) (by simp only [prun, e]; exact hva)

theorem sync_written {w1 w2 : Inner} (hb : Base w1) {fc : List Call} (ht : Tracks Fine cache name w1 fc) (hs : pstep w1 .sync = (.done (.ok ()), some w2)) :
    ∃ fc2, Written cache name w2.file fc2 ∧ furthest (writesOf fc2) = w1.length ∧
      written nothing fc2 = overwrite (written nothing fc) (w1.length / w1.pageSize * w1.pageSize) (w1.lastPage.take (w1.length % w1.pageSize)) := by
  have hlt := Nat.mod_lt w1.length hb.pos
  have hla := hb.last
  have htl : (w1.lastPage.take (w1.length % w1.pageSize)).length = w1.length % w1.pageSize := by rw [List.length_take]; omega
  obtain ⟨-, evs, hok, hfile⟩ := sync_file hb hs
  obtain ⟨t1, t2, t3, t4, t5, t6⟩ := ht.write hok
  rw [htl] at t5
  obtain ⟨f1, f2, -⟩ := ht.shape.sync
  refine ⟨_, ⟨by rw [t1, hfile], t2, t3, by rw [hfile]; exact t4, ?_⟩, by rw [t5, f1], t6⟩
  rw [t5, f1]
  exact f2

/-- Opening a file, if its last page can be read. -/
theorem open_eq {file3 file4 : World} {l ps : Nat} {bs : Bytes} (hpos : 0 < ps) (h64 : l / ps * ps + ps < 2 ^ 64) (hlen : step file3 .length = (.num l, file3))
    (hrd : step file3 (.read (l / ps * ps) l []) = (.bytes (.ok bs), file4)) (hle : bs.length + (l / ps * ps + ps - l) < 2 ^ 31) :
    openPaging file3 [] ps = some ⟨file4, [], [], bs ++ List.replicate (l / ps * ps + ps - l) 0, ps, l⟩ := by
  unfold openPaging new
  have e0 : ∀ {α : Type} (w : Inner) (f : Inner → P α), (Paging.self >>= f) w = f w w := fun w f => pbind_ok rfl
  have e1 : fileLength ⟨file3, [], [], [], ps, 0⟩ = (.ok l, ⟨file3, [], [], [], ps, 0⟩) := by
    unfold fileLength
    rw [pbind_ok (x := call fun _ => .length) (a := .num l) (w' := ⟨file3, [], [], [], ps, 0⟩) (by unfold call; dsimp only; rw [hlen]; rfl)]
    rfl
  have e2 : fileRead (l / ps * ps, l) ⟨file3, [], [], [], ps, 0⟩ = (.ok bs, ⟨file4, [], [], [], ps, 0⟩) := by
    unfold fileRead
    rw [pbind_ok (x := call _) (a := .bytes (.ok bs)) (w' := ⟨file4, [], [], [], ps, 0⟩) (by unfold call; dsimp only [List.headD]; rw [hrd]; rfl)]
    rfl
  rw [e0, pbind_ok e1, lift_ok (by rw [pageRange_eq hpos, if_pos h64]), pbind_ok e2, if_pos hle]
  rfl

/-- What `sync` and opening again give. -/
theorem reopened (hp : Plain name) (hu : Unused cache name) {w1 w2 : Inner} (hb : Base w1) (ht : Tracked Fine cache name w1)
    (hs : pstep w1 .sync = (.done (.ok ()), some w2)) (hsize : w1.length < 2 ^ 31) :
    (step (step w2.file .reopen).2 .length).1 = .num w1.length ∧
    ∃ w3 fc, openPaging (step w2.file .reopen).2 [] w1.pageSize = some w3 ∧ Base w3 ∧ w3.pageSize = w1.pageSize ∧ w3.length = w1.length ∧ w3.fullPages = [] ∧ w3.coming = [] ∧
      w3.lastPage = w1.lastPage.take (w1.length % w1.pageSize) ++ List.replicate (w1.pageSize - w1.length % w1.pageSize) 0 ∧
      Written cache name w3.file fc ∧ furthest (writesOf fc) = w1.length ∧
      ∀ p page, w1.get p = some page → Shows (written nothing fc) (p * w1.pageSize) page := by
  obtain ⟨fc, ht⟩ := ht
  have hmod := sub_div_mul w1.length w1.pageSize
  have hlt := Nat.mod_lt w1.length hb.pos
  have hle := Nat.div_mul_le_self w1.length w1.pageSize
  have hsm := hb.small
  have hla := hb.last
  have h64 : w1.length / w1.pageSize * w1.pageSize + w1.pageSize < 2 ^ 64 := by omega
  have htl : (w1.lastPage.take (w1.length % w1.pageSize)).length = w1.length % w1.pageSize := by rw [List.length_take]; omega
  obtain ⟨fc2, hW2, hfar, t6⟩ := sync_written hb ht hs
  -- opening
  have hW3 : Written cache name (step w2.file .reopen).2 (fc2 ++ [.reopen]) := hW2.reads (by simp) (by simp) (by simp) rfl
  have hfar3 : furthest (writesOf (fc2 ++ [.reopen])) = w1.length := by rw [writesOf_append]; show furthest (writesOf fc2 ++ []) = _; rw [List.append_nil, hfar]
  have hlen3 := hW3.length hp hu
  rw [hfar3] at hlen3
  generalize (step w2.file .reopen).2 = file3 at *
  obtain ⟨bs, file4, hrd, hW4, hl4, hsh4⟩ := hW3.read hp hu (a := w1.length / w1.pageSize * w1.pageSize) (b := w1.length) (by omega) (by omega)
  have hwr3 : written nothing (fc2 ++ [.reopen]) = written nothing fc2 := by rw [written_append]; rfl
  rw [hwr3, t6] at hsh4
  have hbs : bs = w1.lastPage.take (w1.length % w1.pageSize) := shows_eq hsh4 shows_written (by omega)
  have hwr4 : written nothing (fc2 ++ [.reopen] ++ [.read (w1.length / w1.pageSize * w1.pageSize) w1.length []]) = overwrite (written nothing fc) (w1.length / w1.pageSize * w1.pageSize) (w1.lastPage.take (w1.length % w1.pageSize)) := by
    rw [written_append]
    show written nothing (fc2 ++ [.reopen]) = _
    rw [hwr3, t6]
  have hrem : w1.length / w1.pageSize * w1.pageSize + w1.pageSize - w1.length = w1.pageSize - w1.length % w1.pageSize := by omega
  refine ⟨by rw [hlen3], ⟨file4, [], [], bs ++ List.replicate (w1.length / w1.pageSize * w1.pageSize + w1.pageSize - w1.length) 0, w1.pageSize, w1.length⟩, _, ?_,
    ⟨hb.pos, hb.dvd, hb.small, ?_⟩, rfl, rfl, rfl, rfl, by rw [hbs, hrem], hW4, ?_, ?_⟩
  · exact open_eq hb.pos h64 hlen3 hrd (by omega)
  · show (bs ++ List.replicate _ _).length = w1.pageSize
    rw [List.length_append, List.length_replicate, hl4]; omega
  · rw [writesOf_append]; show furthest (writesOf (fc2 ++ [.reopen]) ++ []) = _; rw [List.append_nil, hfar3]
  · intro p page hg
    obtain ⟨a, b, c⟩ := ht.pages p page hg
    rw [hwr4]
    refine shows_overwrite c ?_
    rw [b, ← Nat.succ_mul]
    exact Nat.mul_le_mul_right _ a

/-- What was in memory can be loaded again. -/
theorem reopened_load (hp : Plain name) (hu : Unused cache name) {w1 w2 : Inner} (hb : Base w1) (ht : Tracked Fine cache name w1)
    (hs : pstep w1 .sync = (.done (.ok ()), some w2)) (hsize : w1.length < 2 ^ 31) :
    ∃ w3, openPaging (step w2.file .reopen).2 [] w1.pageSize = some w3 ∧ ∀ s d, d.length < 2 ^ 32 → In w1 s (toBE 4 d.length ++ d) → (loadPrefixed s w3).1 = .ok d := by
  obtain ⟨-, w3, fc, h1, hb3, hps, hln, hfp, hco, hlp, hW, hfar, hpages⟩ := reopened hp hu hb ht hs hsize
  refine ⟨w3, h1, fun s d hd hi => ?_⟩
  obtain ⟨a1, a2, a3, a4⟩ := hi
  have hlt := Nat.mod_lt w1.length hb.pos
  have hla := hb.last
  rcases a4 with ⟨b1, b2, b3⟩ | ⟨b1, page, b2, b3, b4⟩
  · have hi3 : In w3 s (toBE 4 d.length ++ d) := by
      unfold In
      rw [hps, hln, hlp]
      refine ⟨a1, a2, a3, Or.inl ⟨b1, b2, ?_, ?_⟩⟩
      · rw [List.length_append (as := w1.lastPage.take _), List.length_take]; omega
      · rw [List.drop_append_of_le_length (by rw [List.length_take]; omega), List.take_append_of_le_length (by rw [List.length_drop, List.length_take]; omega),
          List.drop_take, List.take_take, Nat.min_eq_left (by omega), b3.2]
    rw [load_in hb3 hd hi3]
  · have hle := Nat.div_mul_le_self w1.length w1.pageSize
    have hnext : s / w1.pageSize * w1.pageSize + w1.pageSize ≤ w1.length / w1.pageSize * w1.pageSize := by
      rw [← Nat.succ_mul]; exact Nat.mul_le_mul_right _ b1
    obtain ⟨bs, file4, hrd, -, hl, hsh⟩ := hW.read hp hu (a := s / w1.pageSize * w1.pageSize) (b := s / w1.pageSize * w1.pageSize + w1.pageSize) (by omega) (by omega)
    have hbs : bs = page := shows_eq hsh (hpages _ _ b2) (by omega)
    have e0 : ∀ {α : Type} (w : Inner) (f : Inner → P α), (Paging.self >>= f) w = f w w := fun w f => pbind_ok rfl
    have hget : w3.get (s / w1.pageSize) = none := by unfold Inner.get; rw [hfp]; rfl
    have hload : ∃ w', loadPage s w3 = (.ok page, w') := by
      unfold loadPage
      rw [e0, lift_ok (pageNum_eq hb3.pos _), lift_ok (pageNum_eq hb3.pos _), hps, hln, if_neg (by omega), hget]
      dsimp only
      rw [ensure_ok (by simp; omega), lift_ok (by rw [pageRange_eq hb.pos, if_pos a1])]
      have e2 : fileRead (s / w1.pageSize * w1.pageSize, s / w1.pageSize * w1.pageSize + w1.pageSize) w3 = (.ok page, { w3 with file := file4, coming := [] }) := by
        unfold fileRead
        rw [pbind_ok (x := call _) (a := .bytes (.ok bs)) (w' := { w3 with file := file4, coming := [] }) (by unfold call; dsimp only; rw [hco]; dsimp only [List.headD, List.tail]; rw [hrd]), hbs]
        rfl
      rw [pbind_ok e2]
      exact ⟨_, rfl⟩
    obtain ⟨w', hload⟩ := hload
    rw [load_of_page hb3 hd (by rw [hps]; exact a1) hload (by rw [hps]; exact b4)]

end Radix.Browser.Paging
