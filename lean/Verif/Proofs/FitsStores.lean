import Verif.Proofs.Fits
import Verif.Props.PagedTree
import Verif.Props.BrowserTree

/-
Proof-internal: paged files and browser files take small blobs.
-/

set_option linter.unusedVariables false

namespace Radix.Paged

variable {dbg : Bool} {ps : Nat}

theorem write_growth {W : World} {l : List (Op × Seen)} {d evs id} (h8 : 8 ≤ ps) (h : Inv ps W l)
    (hr : (step dbg ps W (.write d evs)).1 = .bytes (.ok id)) :
    (step dbg ps W (.write d evs)).2.file.length ≤ W.file.length + ps + d.length + 4 := by
  cases hst : W.store with
  | none => simp only [step, hst] at hr; cases hr
  | some s =>
    rcases h with ⟨rfl, hl⟩ | ⟨c, H, B, w, hat, hs, hf, hst'⟩
    · cases hst
    obtain rfl : s = w := by
      rcases hst' with hh | hh <;> rw [hst] at hh
      · cases hh
      · exact Option.some.inj hh
    simp only [step, hst] at hr ⊢
    have hw : Hoare (write dbg d) { s with evs := evs }
        (¬ NoFault evs ∨ ps - 8 < d.length ∨ maxFile < B.length + ps + d.length + 4100)
        (fun _ w' => w'.data.length ≤ 4096 + (B.length + ps + d.length + 4)) (fun _ => True) := by
      refine hoare_bind (hoare_weaken (hoare_append_raw (at_call hat evs) h8) (fun hh => hh) ?_ (fun _ _ => trivial))
      rintro id w' ⟨H', tl, r, pre, h1, h2, h3, h4, h5, h6, h7, h9, h10⟩
      refine hoare_pure ?_
      have := h1.len
      dsimp only at this
      omega
    have hlen := hat.len
    rcases hoare_cases hw with ⟨i, w', e, g⟩ | ⟨w', e, hwhy, g⟩
    · rw [e] at hr ⊢
      rw [hf]
      show w'.data.length ≤ _
      omega
    · rcases e with e | e <;> rw [e] at hr <;> cases hr

theorem seen_ok {x : Seen} {i : Bytes} (h : x.toRes = .ok i) : x = .bytes (.ok i) := by
  match x with
  | .bytes (.ok b) => cases h; rfl
  | .bytes .panic => cases h
  | .bytes .err => cases h
  | .bytes .crash => cases h
  | .opened _ => cases h
  | .lastId _ => cases h
  | .closed => cases h

theorem paged_accepts (h8 : 8 ≤ ps) (h32 : ps < 2 ^ 32 + 8) (n : Nat) : ∀ {h : Hist}, (h.world dbg ps).store ≠ none →
    (∀ evs ∈ h.coming, NoFault evs) → (h.world dbg ps).file.length + n * (2 * ps) ≤ maxFile →
    Accepts (pagedStore dbg ps) (ps - 8) n h := by
  induction n with
  | zero => intros; trivial
  | succ n ih =>
    intro h ho hc hl d hd
    rw [Nat.add_mul, Nat.one_mul] at hl
    have hsm : ∀ op ∈ h.ops, Small ps op := fun op _ => small_of_page h32 op
    have hq : NoFault (h.coming.headD []) := by
      cases he : h.coming with
      | nil => intro e he; cases he
      | cons x l => exact hc x (by rw [he]; exact List.mem_cons_self)
    obtain ⟨x, hx, hp, hok⟩ := C38_write_partial (dbg := dbg) (evs := h.coming.headD []) h8 hsm
      (show d.length < 2 ^ 32 by omega) ho
    obtain ⟨id, rfl⟩ := hok hq hd (by simp only [Hist.world] at hl; omega)
    refine ⟨id, ⟨h.ops ++ [.write d (h.coming.headD [])], h.coming.tail⟩, ?_, ?_⟩
    · show (((step dbg ps (h.world dbg ps) (.write d (h.coming.headD []))).1).toRes, _) = _
      rw [show (step dbg ps (h.world dbg ps) (.write d (h.coming.headD []))).1 = _ from hx]
      rfl
    · have hw : (⟨h.ops ++ [.write d (h.coming.headD [])], h.coming.tail⟩ : Hist).world dbg ps =
          (step dbg ps (h.world dbg ps) (.write d (h.coming.headD []))).2 := by
        simp only [Hist.world, run_append]; rfl
      refine ih ?_ (fun evs he => hc evs (List.mem_of_mem_tail he)) ?_
      · rw [hw]; exact write_store hx
      · rw [hw]
        have hinv := inv_run (dbg := dbg) h8 h.ops hsm inv_fresh
        have := write_growth (dbg := dbg) h8 hinv hx
        simp only [Hist.world] at hl ⊢
        omega

theorem paged_ids {h8 : 8 ≤ ps} {h32 : ps < 2 ^ 32 + 8} (h : Hist) (i d : Bytes) (hh : (pagedLawful dbg ps h8 h32).Has h i d) :
    i.length ≤ 8 := by
  obtain ⟨e, he, hw⟩ := hh
  have hinv := inv_run (dbg := dbg) h8 h.ops (fun op _ => small_of_page h32 op) inv_fresh
  rw [List.nil_append] at hinv
  rcases hinv with ⟨_, hl⟩ | ⟨c, H, B, w, _, hs, _⟩
  · exact absurd hw (hl e he d i)
  · exact Nat.le_of_eq (hs e he d i hw).1

end Radix.Paged

namespace Radix.Browser
open Radix.Spec

variable {cache : Cache} {name : Name} {hp : Plain name} {hu : Unused cache name}

theorem put_id {w : World} {d evs i} (h : (step w (.put d evs)).1 = .bytes (.ok i)) : i.length = 8 := by
  simp only [step] at h
  cases hh : w.handle with
  | none => rw [hh] at h; cases h
  | some cs =>
    rw [hh] at h
    dsimp only at h
    generalize (appendPrefixed d ⟨w.cache, w.name, cs, evs⟩).1 = x at h
    cases x with
    | ok n => cases h; exact toBE_length _ _
    | err => cases h
    | panic => cases h
    | crash => cases h

theorem log_put {cs : List Call} : ∀ {w : World} {e : Call × Seen} {d i}, e ∈ log w cs → PutOk e d i → i.length = 8 := by
  induction cs with
  | nil => intro w e d i he; cases he
  | cons c cs ih =>
    intro w e d i he hp
    rcases List.mem_cons.1 he with rfl | he
    · obtain ⟨⟨evs, h1⟩, h2⟩ := hp
      dsimp only at h1 h2
      subst h1
      exact put_id h2
    · exact ih he hp

theorem file_ids (h : FileHist) (i d : Bytes) (hh : (fileLawful hp hu).Has h i d) : i.length ≤ 8 := by
  obtain ⟨e, he, hput⟩ := hh
  exact Nat.le_of_eq (log_put he hput)

theorem put_handle {w : World} {d evs i} (h : (step w (.put d evs)).1 = .bytes (.ok i)) :
    (step w (.put d evs)).2.handle.isSome := by
  simp only [step] at h ⊢
  cases hh : w.handle with
  | none => rw [hh] at h; cases h
  | some cs =>
    rw [hh] at h
    dsimp only at h ⊢
    revert h
    generalize appendPrefixed d ⟨w.cache, w.name, cs, evs⟩ = r
    obtain ⟨x, w'⟩ := r
    intro h
    cases x with
    | ok n => simp [after]
    | err => cases h
    | panic => cases h
    | crash => cases h

theorem reach_snoc (cs : List Call) (d : Bytes) (evs) : ∀ E, reach E (cs ++ [.put d evs]) = reach E cs + (record d).length := by
  induction cs with
  | nil => intro E; rfl
  | cons c cs ih => intro E; rw [List.cons_append, reach_cons, reach_cons E c cs, ih]

theorem run_snoc (cs : List Call) (c : Call) : ∀ w, run w (cs ++ [c]) = (step (run w cs) c).2 := by
  induction cs with
  | nil => intro w; rfl
  | cons x cs ih => intro w; exact ih _

theorem file_accepts (hp : Plain name) (hu : Unused cache name) (B : Nat) (n : Nat) : ∀ {h : FileHist},
    (run (fresh cache name) h.calls).handle.isSome → (∀ evs ∈ h.coming, Calm evs) → h.calls.length + n ≤ 2 ^ 64 →
    reach 0 h.calls + n * (B + 4) < 2 ^ 31 → Accepts (fileStore cache name) B n h := by
  induction n with
  | zero => intros; trivial
  | succ n ih =>
    intro h ho hc hn hl d hd
    rw [Nat.add_mul, Nat.one_mul] at hl
    have hrec : (record d).length = d.length + 4 := by simp [record, toBE_length]; try omega
    have hq : Calm (h.coming.headD []) := by
      cases he : h.coming with
      | nil => intro e he; cases he
      | cons x l => exact hc x (by rw [he]; exact List.mem_cons_self)
    obtain ⟨id, hx⟩ := (C44_succeeds_partial hp hu hq ho).2.2.1 d (by omega) (by rw [reach_snoc]; omega)
    refine ⟨id, h.more [.put d (h.coming.headD [])] (fun c hc => by rw [List.mem_singleton.1 hc]; exact ⟨by simp, by simp⟩) h.coming.tail, ?_, ?_⟩
    · show (((step (run (fresh cache name) h.calls) (.put d (h.coming.headD []))).1).toRes, _) = _
      rw [hx]
      rfl
    · refine ih ?_ (fun evs he => hc evs (List.mem_of_mem_tail he)) ?_ ?_
      · simp only [FileHist.more]
        rw [run_snoc]; exact put_handle hx
      · simp only [FileHist.more, List.length_append, List.length_cons, List.length_nil]; omega
      · simp only [FileHist.more]
        rw [reach_snoc]; omega

end Radix.Browser
