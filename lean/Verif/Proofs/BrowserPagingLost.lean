import Verif.Proofs.BrowserPagingSync

/-
What a `PagingFile` leaves in the file when a page is finished after a part of it was written by `sync`.
-/

set_option linter.unusedVariables false

namespace Radix.Browser.Paging
open Radix.Browser
open Radix.Spec (Contents overwrite nothing Unused reach Shows TopEnd pieces Piece)

variable {cache : Cache} {name : Name} {P Q : Nat → Nat → List (Nat × Nat) → Prop}

/-- Finishing a page: one more write, of the whole page. -/
theorem closePage_shape (w0 : Inner) (hb : Base w0) (ht : Tracked P cache name w0)
    (hP : ∀ ws, P w0.length w0.pageSize ws → Q (w0.length / w0.pageSize * w0.pageSize + w0.pageSize) w0.pageSize (ws ++ [(w0.length / w0.pageSize * w0.pageSize, w0.pageSize)])) :
    Tri (fun w => w = w0) closePage (fun _ w => Tracked Q cache name w) (fun _ => True) := by
  obtain ⟨fc, ht⟩ := ht
  unfold closePage
  refine Tri.bind_self ?_
  refine Tri.bind_ok (pageNum_eq hb.pos _) ?_
  by_cases h : w0.length / w0.pageSize * w0.pageSize + w0.pageSize < 2 ^ 64
  · refine Tri.bind_ok (by rw [pageRange_eq hb.pos, if_pos h]) ?_
    refine Tri.bind (fileWrite_file w0 _ _) fun _ => ?_
    refine Tri.intro fun w hw => ?_
    obtain ⟨hs, evs, hw1, hw2⟩ := hw
    refine Tri.bind_update ?_
    dsimp only at hw1 hw2 ⊢
    refine Tri.bind_ok (pageNum_eq hb.pos _) ?_
    rw [next_div hb.pos, if_pos rfl]
    refine Tri.pure ?_
    intro v hv
    obtain ⟨s1, s2, s3, s4⟩ := hs
    obtain ⟨t1, t2, t3, t4, t5, t6⟩ := ht.write hw1
    have hvp : v.pageSize = w0.pageSize := by rw [hv]; exact s3
    have hvl : v.length = w0.length / w0.pageSize * w0.pageSize + w0.pageSize := by rw [hv]
    have hvf : v.file = w.file := by rw [hv]; rfl
    have hvg : ∀ q, v.get q = if w0.length / w0.pageSize = q then some w0.lastPage else w0.get q := by
      intro q
      have := get_insert w (w0.length / w0.pageSize) q w0.lastPage
      unfold Inner.get Inner.insert at *
      rw [hv, ← s1]; exact this
    refine ⟨_, ⟨by rw [t1, hvf, hw2], t2, t3, by rw [hvf, hw2]; exact t4, ?_, ?_⟩⟩
    · rw [t5, hvp, hvl, hb.last]
      exact hP _ ht.shape
    · rw [t6, hvp, hvl, next_div hb.pos]
      intro p page hg
      rw [hvg] at hg
      split at hg
      · rename_i hpe
        cases hg
        refine ⟨by omega, hb.last, ?_⟩
        rw [← hpe]
        exact shows_written
      · obtain ⟨a, b, c⟩ := ht.pages p page hg
        refine ⟨by omega, b, shows_overwrite c ?_⟩
        rw [b, ← Nat.succ_mul]
        exact Nat.mul_le_mul_right _ a
  · exact Tri.bind_panic (by rw [pageRange_eq hb.pos, if_neg h])

/-- Page `k` has been written twice and is the end of the file; all other writes are apart, below the current page. -/
def Late (k l ps : Nat) (ws : List (Nat × Nat)) : Prop :=
  k < l / ps ∧ TopEnd (pieces ws) ((k + 1) * ps) ∧ (∃ p ∈ pieces ws, 1 ≤ p.level) ∧ ∀ x ∈ ws, x.1 + x.2 ≤ l / ps * ps

/-- Page `k` is the current one and a part of it was written, or it has been written since. -/
def Stage (k l ps : Nat) (ws : List (Nat × Nat)) : Prop := (l / ps = k ∧ Begun l ps ws) ∨ Late k l ps ws

theorem pieces_snoc (ws : List (Nat × Nat)) (x : Nat × Nat) : pieces (ws ++ [x]) = Radix.Spec.stack (pieces ws) x := by
  unfold pieces; rw [List.foldl_append]; rfl

theorem Late.grow {k l l' ps : Nat} (h : l ≤ l') (ws : List (Nat × Nat)) (hc : Late k l ps ws) : Late k l' ps ws :=
  have hd : l / ps ≤ l' / ps := Nat.div_le_div_right h
  ⟨Nat.lt_of_lt_of_le hc.1 hd, hc.2.1, hc.2.2.1, fun x hx => Nat.le_trans (hc.2.2.2 x hx) (Nat.mul_le_mul_right _ hd)⟩

/-- A write at the beginning of the current page does not change the length. -/
theorem Late.write {k l ps m : Nat} {ws : List (Nat × Nat)} (h : Late k l ps ws) :
    TopEnd (pieces (ws ++ [(l / ps * ps, m)])) ((k + 1) * ps) ∧ ∃ p ∈ pieces (ws ++ [(l / ps * ps, m)]), 1 ≤ p.level := by
  rw [pieces_snoc]
  refine ⟨top_stack_apart (fun p hp hh => ?_) h.2.2.1 h.2.1, high_stack h.2.2.1 _⟩
  obtain ⟨x, hx, h1, h2⟩ := pieces_inside _ p hp
  have := h.2.2.2 x hx
  rw [hit_iff] at hh
  dsimp only at hh
  omega

theorem Stage.close {k l ps : Nat} (hpos : 0 < ps) (ws : List (Nat × Nat)) (h : Stage k l ps ws) :
    Stage k (l / ps * ps + ps) ps (ws ++ [(l / ps * ps, ps)]) := by
  have hlt : l < l / ps * ps + ps := by have := Nat.mod_lt l hpos; have := sub_div_mul l ps; omega
  right
  rcases h with ⟨hk, h⟩ | h
  · have hm : ∀ p ∈ pieces ws, p.offset + p.len ≤ furthest ws := fun p hp => by
      obtain ⟨x, hx, h4⟩ := pieces_inside _ p hp
      have := foldr_max_spec.1 x hx
      unfold furthest
      omega
    have ht := top_cover (w := (l / ps * ps, ps)) h.1 hm h.2.1 (by have := h.2.2; dsimp only; omega)
    refine ⟨by rw [next_div hpos]; omega, ?_, ?_, fun x hx => ?_⟩
    · rw [pieces_snoc, ← hk, Nat.succ_mul]; exact ht
    · rw [pieces_snoc]
      rcases h.1 with ⟨-, h0⟩ | ⟨p, hp, h3, h4, h5⟩
      · have := h.2.1; omega
      · have hh : p.hit (l / ps * ps, ps) = true := by
          rw [hit_iff]
          have := h.2.1
          have := h.2.2
          dsimp only
          omega
        have := levelFor_above hp hh
        exact ⟨_, mem_stack.2 (Or.inl rfl), by dsimp only; omega⟩
    · rw [next_div hpos, Nat.succ_mul]
      rcases List.mem_append.1 hx with hx | hx
      · have := foldr_max_spec.1 x hx
        have := h.2.2
        unfold furthest at this
        omega
      · rw [List.mem_singleton.1 hx]; exact Nat.le_refl _
  · obtain ⟨h1, h2⟩ := h.write (m := ps)
    refine ⟨by rw [next_div hpos]; have := h.1; omega, h1, h2, fun x hx => ?_⟩
    rw [next_div hpos, Nat.succ_mul]
    rcases List.mem_append.1 hx with hx | hx
    · have := h.2.2.2 x hx; omega
    · rw [List.mem_singleton.1 hx]; exact Nat.le_refl _

theorem append_stage {k : Nat} (w0 : Inner) (hb : Base w0) (data : Bytes) (ht : Tracked (Stage k) cache name w0) :
    Tri (fun w => w = w0) (append data) (fun _ w => Tracked (Stage k) cache name w) (fun _ => True) := by
  unfold append
  refine Tri.bind_self ?_
  refine Tri.bind (Tri.ensure fun w h _ => trivial) fun _ => ?_
  refine Tri.intro fun w h => ?_
  obtain ⟨h1, rfl⟩ := h
  have h1 : data.length ≤ w.pageSize := by simpa using h1
  have hs := hb.small
  refine Tri.bind_ok (a := data.length + 8) (by unfold u64; rw [if_pos (by omega)]) ?_
  refine Tri.bind_self ?_
  by_cases h64 : w.length / w.pageSize * w.pageSize + w.pageSize < 2 ^ 64
  · refine Tri.bind_ok (a := w.length / w.pageSize * w.pageSize + w.pageSize - w.length) (by unfold remaining; rw [pageRange_eq hb.pos, if_pos h64]; rfl) ?_
    refine Tri.bind (S := fun _ v => v.pageSize = w.pageSize ∧ Tracked (Stage k) cache name v ∧
      (Tracked (Late k) cache name v ∨ v.length = w.length ∧ data.length + 8 ≤ w.length / w.pageSize * w.pageSize + w.pageSize - w.length)) ?_ fun _ => ?_
    · split
      · have hl := closePage_shape (Q := fun l ps ws => Stage k l ps ws ∧ k < l / ps) w hb ht fun ws h => ⟨Stage.close hb.pos ws h, by
          rw [next_div hb.pos]
          rcases h with h | h
          · omega
          · have := h.1; omega⟩
        have hp := closePage_tri w hb
        intro v hv
        have a1 := hl v hv
        have a2 := hp v hv
        revert a1 a2
        rcases closePage v with ⟨x | _ | _ | _, v'⟩
        · rintro ⟨fc, t⟩ a2
          refine ⟨a2.2.2.1, ⟨fc, t.file, t.only, t.ok, t.isOpen, t.shape.1, t.pages⟩, Or.inl ⟨fc, t.file, t.only, t.ok, t.isOpen, ?_, t.pages⟩⟩
          rcases t.shape with ⟨⟨b1, -⟩ | b, b2⟩
          · omega
          · exact b
        all_goals exact fun _ _ => trivial
      · exact Tri.pure fun v hv => by subst hv; exact ⟨rfl, ht, Or.inr ⟨rfl, by omega⟩⟩
    · refine Tri.intro fun v hv => ?_
      refine Tri.bind (alignLength_tri v) fun _ => ?_
      refine Tri.bind_self ?_
      dsimp only
      have hal : v.length ≤ aligned v.length := by unfold aligned; omega
      have hal8 : aligned v.length < v.length + 8 := by unfold aligned; omega
      rcases hin : within (aligned v.length) v.pageSize with o | _ | _ | _
      · refine Tri.bind_ok rfl ?_
        split
        · rcases hu : u64 (aligned v.length + data.length) with l | _ | _ | _
          · refine Tri.bind_ok rfl ?_
            refine Tri.bind_update ?_
            refine Tri.pure ?_
            intro w' hw'
            obtain ⟨rfl, -⟩ := u64_ok hu
            have hl' : w'.length = aligned v.length + data.length := by rw [hw']
            have hle : v.length ≤ w'.length := by omega
            have hps : w'.pageSize = v.pageSize := by rw [hw']
            obtain ⟨hvp, ⟨fc1, hv1⟩, hv⟩ := hv
            rcases hv with ⟨fc, hv⟩ | ⟨hvl, hroom⟩
            · have := hv.grow (w' := w') (by rw [hw']) (by rw [hw']) hps hle (Late.grow hle)
              exact ⟨fc, this.file, this.only, this.ok, this.isOpen, Or.inr this.shape, this.pages⟩
            · refine ⟨fc1, hv1.grow (by rw [hw']) (by rw [hw']) hps hle fun ws h => ?_⟩
              have hsame : w'.length / v.pageSize = v.length / v.pageSize := by
                have h2 : w'.length / v.pageSize < v.length / v.pageSize + 1 := by
                  rw [Nat.div_lt_iff_lt_mul (by rw [hvp]; exact hb.pos), Nat.succ_mul, hvp, hvl]
                  omega
                have h3 : v.length / v.pageSize ≤ w'.length / v.pageSize := Nat.div_le_div_right hle
                omega
              rcases h with ⟨e, h⟩ | h
              · exact Or.inl ⟨by rw [hsame]; exact e, Begun.grow hle hsame ws h⟩
              · exact Or.inr (Late.grow hle ws h)
          · exact absurd hu (u64_ne _)
          · exact Tri.bind_panic rfl
          · intro _ _; trivial
        · exact Tri.panic
      · intro _ _; trivial
      · exact Tri.bind_panic rfl
      · intro _ _; trivial
  · exact Tri.bind_panic (by unfold remaining; rw [pageRange_eq hb.pos, if_neg h64]; rfl)

theorem pstep_stage {k : Nat} (hp : Plain name) (hu : Unused cache name) {w w' : Inner} {c : PCall} {r : Seen} (hb : Base w) (ht : Tracked (Stage k) cache name w)
    (h : pstep w c = (r, some w')) (hc : c ≠ .sync) (hr : ∀ d, c = .put d → r ≠ .bytes .err) : Tracked (Stage k) cache name w' := by
  cases c with
  | put data =>
    have h1 : Tri (fun v => v = w) (appendPrefixed data) (fun _ w => Tracked (Stage k) cache name w) (fun _ => True) := by
      unfold appendPrefixed
      split
      · exact append_stage w hb _ ht
      · exact Tri.panic
    obtain ⟨h1, h2⟩ := tri_apply h1
    unfold pstep at h
    dsimp only at h
    split at h
    · rename_i n v e
      cases h
      exact h1 _ _ e
    · rename_i v e
      cases h
      exact absurd rfl (hr data rfl)
    · cases h
    · cases h
  | get id =>
    obtain ⟨h1, h2⟩ := tri_apply (load_tracked hp hu w hb ht (ofBE id))
    unfold pstep at h
    dsimp only at h
    split at h
    · split at h
      · rename_i n v e
        cases h
        exact h1 _ _ e
      · rename_i v e
        cases h
        exact h2 _ e
      · cases h
      · cases h
    · cases h
      exact ht
  | sync => exact absurd rfl hc

theorem prun_stage {k : Nat} (hp : Plain name) (hu : Unused cache name) : ∀ (cs : List PCall) {w w' : Inner}, Base w → Tracked (Stage k) cache name w → prun w cs = some w' →
    (∀ c ∈ cs, c ≠ .sync) → (∀ d, (.put d, .bytes .err) ∉ plog w cs) → Tracked (Stage k) cache name w'
  | [], w, w', hb, ht, h, _, _ => by cases h; exact ht
  | c :: cs, w, w', hb, ht, h, hc, hr => by
    unfold prun at h
    rcases e : pstep w c with ⟨r, _ | v⟩
    · rw [e] at h; cases h
    · rw [e] at h
      unfold plog at hr
      rw [e] at hr
      dsimp only at hr
      refine prun_stage hp hu cs (pstep_keeps hb e).1 (pstep_stage hp hu hb ht e (hc c (by simp)) fun d hd hre => ?_) h (fun x hx => hc x (by simp [hx])) fun d hm =>
        hr d (List.mem_cons_of_mem _ hm)
      subst hd hre
      exact hr d List.mem_cons_self

/-- After `sync` on a page with something on it. -/
theorem sync_stage {w1 w2 : Inner} (hb : Base w1) (ht : Tracked Fine cache name w1) (hs : pstep w1 .sync = (.done (.ok ()), some w2)) (hne : w1.length % w1.pageSize ≠ 0) :
    Same w1 w2 ∧ Tracked (Stage (w1.length / w1.pageSize)) cache name w2 := by
  obtain ⟨hsame, evs, hok, hfile⟩ := sync_file hb hs
  refine ⟨hsame, ?_⟩
  obtain ⟨s1, s2, s3, s4⟩ := hsame
  obtain ⟨fc, ht⟩ := ht
  obtain ⟨t1, t2, t3, t4, t5, t6⟩ := ht.write hok
  have hmod := sub_div_mul w1.length w1.pageSize
  have htl : (w1.lastPage.take (w1.length % w1.pageSize)).length = w1.length % w1.pageSize := by
    have := Nat.mod_lt w1.length hb.pos
    rw [List.length_take, hb.last]; omega
  rw [htl] at t5
  obtain ⟨f1, f2, -⟩ := ht.shape.sync
  refine ⟨_, ⟨by rw [t1, hfile], t2, t3, by rw [hfile]; exact t4, ?_, fun p page hg => ?_⟩⟩
  · rw [t5, s3, s4]
    refine Or.inl ⟨rfl, by rw [f1]; exact f2, by rw [f1]; omega, by rw [f1]; exact Nat.le_refl _⟩
  · have hg : w1.get p = some page := by unfold Inner.get at *; rw [← s1]; exact hg
    obtain ⟨a, b, c⟩ := ht.pages p page hg
    rw [s3, s4, t6]
    refine ⟨a, b, shows_overwrite c ?_⟩
    rw [b, ← Nat.succ_mul]
    exact Nat.mul_le_mul_right _ a

/-- A file with a history of successful writes, its length, and the pages that were written. -/
structure Ended (cache : Cache) (name : Name) (f : World) (fc : List Call) (n : Nat) : Prop where
  file : f = run (fresh cache name) fc
  only : OnlyWrites fc
  ok : WritesOk (log (fresh cache name) fc)
  isOpen : f.handle.isSome
  top : TopEnd (pieces (writesOf fc)) n

/-- A call that is not a write. -/
theorem Ended.reads {file : World} {fc : List Call} {n : Nat} (h : Ended cache name file fc n) {c : Call} (hw : ∀ o d evs, c ≠ .write o d evs)
    (ht : ∀ n evs, c ≠ .truncate n evs) (hp : ∀ d evs, c ≠ .put d evs) (ho : (step file c).2.handle.isSome) :
    Ended cache name (step file c).2 (fc ++ [c]) n ∧ writesOf (fc ++ [c]) = writesOf fc ∧ written nothing (fc ++ [c]) = written nothing fc := by
  have hwo : writesOf (fc ++ [c]) = writesOf fc := by
    rw [writesOf_append]
    cases c
    case write o d evs => exact absurd rfl (hw o d evs)
    all_goals exact List.append_nil _
  have hwr : written nothing (fc ++ [c]) = written nothing fc := by
    rw [written_append]
    cases c
    case write o d evs => exact absurd rfl (hw o d evs)
    all_goals rfl
  refine ⟨⟨?_, ?_, ?_, ho, by rw [hwo]; exact h.top⟩, hwo, hwr⟩
  · rw [run_append, h.file]; rfl
  · intro x hx
    rcases List.mem_append.1 hx with hx | hx
    · exact h.only x hx
    · rw [List.mem_singleton.1 hx]; exact ⟨ht, hp⟩
  · intro e he o d evs hc
    rw [log_append] at he
    rcases List.mem_append.1 he with he | he
    · exact h.ok e he o d evs hc
    · simp only [log, List.mem_singleton] at he
      rw [he] at hc
      exact absurd hc (hw o d evs)

/-- Reading below the length. -/
theorem Ended.read (hp : Plain name) (hu : Unused cache name) {file : World} {fc : List Call} {n : Nat} (h : Ended cache name file fc n)
    (hs : furthest (writesOf fc) < 2 ^ 31) {a b : Nat} (hb : b ≤ n) :
    ∃ bs file', step file (.read a b []) = (.bytes (.ok bs), file') ∧ file'.handle.isSome ∧ bs.length = b - a ∧ Shows (written nothing fc) a bs := by
  have ho : (run (fresh cache name) fc).handle.isSome := by rw [← h.file]; exact h.isOpen
  obtain ⟨-, -, -, m, hm, hr⟩ := C44_succeeds_partial hp hu (cs := fc) (evs := []) (by intro e he; cases he) ho
  have e := topEnd_unique (C45_exact_partial hp hu h.only h.ok hm) h.top
  obtain ⟨bs, hbs⟩ := hr a b (by have := reach_only 0 h.only; omega) (by omega)
  obtain ⟨l1, l2⟩ := C44_last_written_partial hp hu h.only h.ok hbs
  rw [← h.file] at hbs
  rcases e : step file (.read a b []) with ⟨x, y⟩
  rw [e] at hbs
  cases hbs
  refine ⟨bs, y, rfl, ?_, l1, fun i hi => l2 i (by omega)⟩
  obtain ⟨ch, hch⟩ := Option.isSome_iff_exists.1 h.isOpen
  revert e
  unfold step
  rw [hch]
  dsimp only
  intro e
  have := Seen.bytes.inj (congrArg Prod.fst e)
  have h2 := congrArg Prod.snd e
  dsimp only at h2
  rw [← h2]
  exact after_isSome (by rw [this]; simp) (by rw [this]; simp)

theorem Ended.length (hp : Plain name) (hu : Unused cache name) {file : World} {fc : List Call} {n : Nat} (h : Ended cache name file fc n) :
    step file .length = (.num n, file) := by
  obtain ⟨ch, hch⟩ := Option.isSome_iff_exists.1 h.isOpen
  have e : ∃ n, step file .length = (.num n, file) := by unfold step; rw [hch]; exact ⟨_, rfl⟩
  obtain ⟨m, e⟩ := e
  have : (step (run (fresh cache name) fc) .length).1 = .num m := by rw [← h.file, e]
  rw [e, topEnd_unique (C45_exact_partial hp hu h.only h.ok this) h.top]

/-- What is there after the last `sync` and opening again: an empty page after page `k`. -/
theorem reopened_late {k : Nat} (hp : Plain name) (hu : Unused cache name) {w1 w2 : Inner} (hb : Base w1) (ht : Tracked (Late k) cache name w1)
    (hs : pstep w1 .sync = (.done (.ok ()), some w2)) (hsize : w1.length < 2 ^ 31) :
    ∃ file4 fc, openPaging (step w2.file .reopen).2 [] w1.pageSize = some ⟨file4, [], [], List.replicate w1.pageSize 0, w1.pageSize, (k + 1) * w1.pageSize⟩ ∧
      Ended cache name file4 fc ((k + 1) * w1.pageSize) ∧ furthest (writesOf fc) < 2 ^ 31 ∧
      ∀ p page, w1.get p = some page → page.length = w1.pageSize ∧ Shows (written nothing fc) (p * w1.pageSize) page := by
  obtain ⟨fc, ht⟩ := ht
  obtain ⟨-, evs, hok, hfile⟩ := sync_file hb hs
  obtain ⟨t1, t2, t3, t4, t5, t6⟩ := ht.write hok
  have hmod := sub_div_mul w1.length w1.pageSize
  have hle := Nat.div_mul_le_self w1.length w1.pageSize
  have hsm := hb.small
  have hlt := Nat.mod_lt w1.length hb.pos
  have htl : (w1.lastPage.take (w1.length % w1.pageSize)).length = w1.length % w1.pageSize := by rw [List.length_take, hb.last]; omega
  rw [htl] at t5
  have hE2 : Ended cache name w2.file (fc ++ [_]) ((k + 1) * w1.pageSize) :=
    ⟨by rw [t1, hfile], t2, t3, by rw [hfile]; exact t4, by rw [t5]; exact ht.shape.write.1⟩
  have hfar : furthest (writesOf (fc ++ [.write (w1.length / w1.pageSize * w1.pageSize) (w1.lastPage.take (w1.length % w1.pageSize)) evs])) < 2 ^ 31 := by
    rw [t5, furthest_append _ _ _ fun x hx => by have := ht.shape.2.2.2 x hx; omega]
    omega
  have hk : (k + 1) * w1.pageSize ≤ w1.length / w1.pageSize * w1.pageSize := Nat.mul_le_mul_right _ ht.shape.1
  obtain ⟨hE3, w3, v3⟩ := hE2.reads (c := .reopen) (by simp) (by simp) (by simp) rfl
  generalize (step w2.file .reopen).2 = file3 at *
  have hd : (k + 1) * w1.pageSize / w1.pageSize = k + 1 := Nat.mul_div_cancel _ hb.pos
  obtain ⟨bs, file4, hrd, ho4, hl4, -⟩ := hE3.read hp hu (a := (k + 1) * w1.pageSize) (b := (k + 1) * w1.pageSize) (by rw [w3]; exact hfar) (Nat.le_refl _)
  have hbs : bs = [] := List.eq_nil_of_length_eq_zero (by omega)
  obtain ⟨hE4, w4, v4⟩ := hE3.reads (c := .read ((k + 1) * w1.pageSize) ((k + 1) * w1.pageSize) []) (by simp) (by simp) (by simp) (by rw [hrd]; exact ho4)
  rw [hrd] at hE4
  refine ⟨file4, _, ?_, hE4, by rw [w4, w3]; exact hfar, fun p page hg => ?_⟩
  · have := open_eq (file3 := file3) (file4 := file4) (l := (k + 1) * w1.pageSize) (ps := w1.pageSize) (bs := bs) hb.pos (by rw [hd]; omega) (hE3.length hp hu)
      (by rw [hd]; exact hrd) (by rw [hd]; omega)
    rw [hd, hbs, Nat.add_sub_cancel_left] at this
    exact this
  · obtain ⟨a, b, c⟩ := ht.pages p page hg
    refine ⟨b, ?_⟩
    rw [v4, v3, t6]
    refine shows_overwrite c ?_
    rw [b, ← Nat.succ_mul]
    exact Nat.mul_le_mul_right _ a

theorem pbind_err {α β : Type} {x : Paging.P α} {f : α → Paging.P β} {w w' : Inner} (h : x w = (.err, w')) : (x >>= f) w = (.err, w') := by
  change (match x w with
    | (.ok a, w) => f a w
    | (.err, w) => (.err, w)
    | (.panic, w) => (.panic, w)
    | (.crash, w) => (.crash, w)) = _
  rw [h]

/-- Loading from a page of the file. -/
theorem load_below (hp : Plain name) (hu : Unused cache name) {w : Inner} {fc : List Call} (hb : Base w) (hfp : w.fullPages = []) (hco : w.coming = [])
    (hE : Ended cache name w.file fc w.length) (hfar : furthest (writesOf fc) < 2 ^ 31) {s : Nat} {d page : Bytes} (hd : d.length < 2 ^ 32)
    (h64 : s / w.pageSize * w.pageSize + w.pageSize < 2 ^ 64) (hs : s / w.pageSize < w.length / w.pageSize) (hpl : page.length = w.pageSize)
    (hsh : Shows (written nothing fc) (s / w.pageSize * w.pageSize) page) (ha : At page (s % w.pageSize) (toBE 4 d.length ++ d)) : (loadPrefixed s w).1 = .ok d := by
  have e0 : ∀ {α : Type} (w : Inner) (f : Inner → Paging.P α), (Paging.self >>= f) w = f w w := fun w f => pbind_ok rfl
  have hle := Nat.div_mul_le_self w.length w.pageSize
  have hnext : s / w.pageSize * w.pageSize + w.pageSize ≤ w.length / w.pageSize * w.pageSize := by
    rw [← Nat.succ_mul]; exact Nat.mul_le_mul_right _ hs
  obtain ⟨bs, file4, hrd, -, hl, hsh'⟩ := hE.read hp hu hfar (a := s / w.pageSize * w.pageSize) (b := s / w.pageSize * w.pageSize + w.pageSize) (by omega)
  have hbs : bs = page := shows_eq hsh' hsh (by omega)
  have hget : w.get (s / w.pageSize) = none := by unfold Inner.get; rw [hfp]; rfl
  have hload : ∃ w', loadPage s w = (.ok page, w') := by
    unfold loadPage
    rw [e0, lift_ok (pageNum_eq hb.pos _), lift_ok (pageNum_eq hb.pos _), if_neg (by omega), hget]
    dsimp only
    rw [ensure_ok (by simp; omega), lift_ok (by rw [pageRange_eq hb.pos, if_pos h64])]
    have e2 : fileRead (s / w.pageSize * w.pageSize, s / w.pageSize * w.pageSize + w.pageSize) w = (.ok page, { w with file := file4, coming := [] }) := by
      unfold fileRead
      rw [pbind_ok (x := call _) (a := .bytes (.ok bs)) (w' := { w with file := file4, coming := [] }) (by unfold call; dsimp only; rw [hco]; dsimp only [List.headD, List.tail]; rw [hrd]), hbs]
      rfl
    rw [pbind_ok e2]
    exact ⟨_, rfl⟩
  obtain ⟨w', hload⟩ := hload
  rw [load_of_page hb hd h64 hload ha]

/-- Pages after the last one cannot be loaded, and neither can anything be on an empty page. -/
theorem load_beyond {w : Inner} (hb : Base w) (hfp : w.fullPages = []) {s : Nat} (h64 : s / w.pageSize * w.pageSize + w.pageSize < 2 ^ 64) (hl : w.length % w.pageSize = 0)
    (hw64 : w.length / w.pageSize * w.pageSize + w.pageSize < 2 ^ 64) (hs : w.length / w.pageSize ≤ s / w.pageSize) : (loadPrefixed s w).1 = .err := by
  have e0 : ∀ {α : Type} (w : Inner) (f : Inner → Paging.P α), (Paging.self >>= f) w = f w w := fun w f => pbind_ok rfl
  unfold loadPrefixed
  rw [e0, lift_ok (by rw [within_eq hb.pos hb.small, if_pos h64])]
  by_cases h : s / w.pageSize = w.length / w.pageSize
  · have hlp : loadPage s w = (.ok [], w) := by
      unfold loadPage
      rw [e0, lift_ok (pageNum_eq hb.pos _), lift_ok (pageNum_eq hb.pos _), if_pos h, lift_ok (by rw [within_eq hb.pos hb.small, if_pos hw64]), if_pos (by omega), hl]
      rfl
    rw [pbind_ok hlp]
    rfl
  · have hlp : loadPage s w = (.err, w) := by
      unfold loadPage
      rw [e0, lift_ok (pageNum_eq hb.pos _), lift_ok (pageNum_eq hb.pos _), if_neg h]
      have hget : w.get (s / w.pageSize) = none := by unfold Inner.get; rw [hfp]; rfl
      rw [hget]
      dsimp only
      have : decide (s / w.pageSize < w.length / w.pageSize) = false := decide_eq_false (by omega)
      rw [this]
      rfl
    rw [pbind_err hlp]

/-- The state of the store after `sync` and opening again, when something is on the current page. -/
theorem reopened_stage (hp : Plain name) (hu : Unused cache name) {w1 w2 : Inner} (hb : Base w1) (ht : Tracked Fine cache name w1)
    (hs : pstep w1 .sync = (.done (.ok ()), some w2)) (hsize : w1.length < 2 ^ 31) (hne : w1.length % w1.pageSize ≠ 0) :
    ∃ w3, openPaging (step w2.file .reopen).2 [] w1.pageSize = some w3 ∧ Base w3 ∧ w3.pageSize = w1.pageSize ∧ w3.length = w1.length ∧
      Tracked (Stage (w1.length / w1.pageSize)) cache name w3 := by
  obtain ⟨-, w3, fc, h1, hb3, hps, hln, hfp, -, -, hW, hfar, -⟩ := reopened hp hu hb ht hs hsize
  have hmod := sub_div_mul w1.length w1.pageSize
  refine ⟨w3, h1, hb3, hps, hln, fc, hW.file, hW.only, hW.ok, hW.isOpen, ?_, fun p page hg => ?_⟩
  · rw [hps, hln]
    exact Or.inl ⟨rfl, hW.top, by rw [hfar]; omega, by rw [hfar]; exact Nat.le_refl _⟩
  · unfold Inner.get at hg
    rw [hfp] at hg
    cases hg

/-- What `get` returns after the last `sync` and opening again, for a blob that was in memory. -/
theorem late_get {k : Nat} (hp : Plain name) (hu : Unused cache name) {w4 w5 : Inner} (hb4 : Base w4) (ht4 : Tracked (Late k) cache name w4)
    (hs : pstep w4 .sync = (.done (.ok ()), some w5)) (hsize : w4.length < 2 ^ 31) :
    ∃ w6, openPaging (step w5.file .reopen).2 [] w4.pageSize = some w6 ∧
      ∀ d s, d.length < 2 ^ 32 → s < 2 ^ 64 → In w4 s (toBE 4 d.length ++ d) →
        (pstep w6 (.get (toBE 8 s))).1 = if s / w4.pageSize ≤ k then .bytes (.ok d) else .bytes .err := by
  obtain ⟨file, fc, h1, hE, hfar, hpages⟩ := reopened_late hp hu hb4 ht4 hs hsize
  have hpos := hb4.pos
  have hlate : k < w4.length / w4.pageSize := by
    obtain ⟨fc, t⟩ := ht4
    exact t.shape.1
  refine ⟨_, h1, fun d s c3 c2 c4 => ?_⟩
  have hd6 : (k + 1) * w4.pageSize / w4.pageSize = k + 1 := Nat.mul_div_cancel _ hpos
  have hb6 : Base ⟨file, [], [], List.replicate w4.pageSize 0, w4.pageSize, (k + 1) * w4.pageSize⟩ := ⟨hpos, hb4.dvd, hb4.small, List.length_replicate⟩
  obtain ⟨a1, a2, a3, a4⟩ := c4
  have hload : (loadPrefixed s ⟨file, [], [], List.replicate w4.pageSize 0, w4.pageSize, (k + 1) * w4.pageSize⟩).1 = if s / w4.pageSize ≤ k then .ok d else .err := by
    split
    · rename_i hle
      rcases a4 with ⟨b1, -⟩ | ⟨b1, page, b2, b3, b4⟩
      · omega
      · refine load_below hp hu hb6 rfl rfl hE hfar c3 a1 (by show _ < _ / w4.pageSize; rw [hd6]; show s / w4.pageSize < _; omega) b3 (hpages _ _ b2).2 b4
    · refine load_beyond hb6 rfl a1 (Nat.mul_mod_left _ _) ?_ ?_
      · show _ / w4.pageSize * w4.pageSize + w4.pageSize < _
        rw [hd6]
        have : (k + 1) * w4.pageSize ≤ w4.length / w4.pageSize * w4.pageSize := Nat.mul_le_mul_right _ hlate
        have := Nat.div_mul_le_self w4.length w4.pageSize
        have := hb4.small
        omega
      · show _ / w4.pageSize ≤ s / w4.pageSize
        rw [hd6]; omega
  unfold pstep
  dsimp only
  rw [if_pos (by rw [toBE_length]), ofBE_toBE_lt (by omega)]
  rcases hl : loadPrefixed s ⟨file, [], [], List.replicate w4.pageSize 0, w4.pageSize, (k + 1) * w4.pageSize⟩ with ⟨x, v⟩
  rw [hl] at hload
  have hload : x = if s / w4.pageSize ≤ k then .ok d else .err := hload
  rw [hload]
  by_cases hle : s / w4.pageSize ≤ k
  · rw [if_pos hle, if_pos hle]
  · rw [if_neg hle, if_neg hle]

/-- A page was finished: it is written for the second time. -/
theorem stage_late {k : Nat} {w : Inner} (h : Tracked (Stage k) cache name w) (hk : w.length / w.pageSize ≠ k) : Tracked (Late k) cache name w := by
  obtain ⟨fc, t⟩ := h
  refine ⟨fc, t.file, t.only, t.ok, t.isOpen, ?_, t.pages⟩
  rcases t.shape with ⟨h, -⟩ | h
  · exact absurd h hk
  · exact h

end Radix.Browser.Paging
