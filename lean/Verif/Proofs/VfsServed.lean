import Verif.Proofs.Vfs

/-
Calls of SQLite succeed: lemmas.
-/

set_option linter.unusedVariables false

namespace Radix.Browser

open Radix.Spec

variable {d f : Name} {b : Bool} {s : Fs} {w : World}

/-! ### How far writes reach -/

theorem reach_append : ∀ (a b : List Call) (n : Nat), reach n (a ++ b) = reach (reach n a) b
  | [], b, n => rfl
  | c :: a, b, n => by
    rw [List.cons_append, reach_cons, reach_append a b, ← reach_cons]

theorem reach_one_mono {n m : Nat} (h : n ≤ m) (c : Call) : reach n [c] ≤ reach m [c] := by
  cases c <;> simp only [reach] <;> omega

theorem reach_one_le (n : Nat) (c : Call) : n ≤ reach n [c] := by
  cases c <;> simp only [reach] <;> omega

theorem vreach_cons (d f : Name) (n : Nat) (c : VCmd) (cs : List VCmd) : vreach d f n (c :: cs) = vreach d f (vreach d f n [c]) cs := by
  cases c with
  | other c => cases c <;> rfl
  | _ => rfl

theorem vreach_append (d f : Name) : ∀ (a b : List VCmd) (n : Nat), vreach d f n (a ++ b) = vreach d f (vreach d f n a) b
  | [], b, n => rfl
  | c :: a, b, n => by
    rw [List.cons_append, vreach_cons, vreach_append d f a b, ← vreach_cons]

theorem vreach_one_le (d f : Name) (n : Nat) (c : VCmd) : n ≤ vreach d f n [c] := by
  cases c with
  | other c =>
    cases c with
    | call e g c =>
      show n ≤ if e = d ∧ g = f then reach n [c] else n
      split
      · exact reach_one_le n c
      · exact Nat.le_refl _
    | _ => exact Nat.le_refl _
  | write e g o buf evs =>
    show n ≤ if e = d ∧ g = f then max n (o + buf.length) else n
    split <;> omega
  | _ => exact Nat.le_refl _

theorem vreach_le (d f : Name) : ∀ (cs : List VCmd) (n : Nat), n ≤ vreach d f n cs
  | [], n => Nat.le_refl _
  | c :: cs, n => by
    rw [vreach_cons]
    exact Nat.le_trans (vreach_one_le d f n c) (vreach_le d f cs _)

/-! ### Files that came from calls -/

/-- The file came from at most `k` calls that reach at most to `n`. -/
def Made (f : Name) (n k : Nat) (w : World) : Prop := ∃ cs, run (fresh [] f) cs = w ∧ reach 0 cs ≤ n ∧ cs.length ≤ k

theorem Made.mono {n m k l : Nat} (h : Made f n k w) (hn : n ≤ m) (hk : k ≤ l) : Made f m l w := by
  obtain ⟨cs, h1, h2, h3⟩ := h
  exact ⟨cs, h1, by omega, by omega⟩

theorem Made.step {n k : Nat} (h : Made f n k w) (c : Call) : Made f (reach n [c]) (k + 1) (Browser.step w c).2 := by
  obtain ⟨cs, h1, h2, h3⟩ := h
  refine ⟨cs ++ [c], ?_, ?_, ?_⟩
  · rw [run_append, h1]; rfl
  · rw [reach_append]; exact reach_one_mono h2 c
  · rw [List.length_append]; exact Nat.succ_le_succ h3

theorem made_fresh (f : Name) (n k : Nat) : Made f n k (fresh [] f) := ⟨[], rfl, Nat.zero_le _, Nat.zero_le _⟩

/-- How far a call reaches. -/
def reachC (d f : Name) (n : Nat) : Cmd → Nat
  | .call e g c => if e = d ∧ g = f then reach n [c] else n
  | _ => n

theorem made_trans {n k : Nat} {c : Cmd} {a : Ans} {b' : Bool} {w' : World} (h : Made f n k w) (t : Trans d f b w c a b' w') : Made f (reachC d f n c) (k + 1) w' := by
  have same : ∀ {w' : World} {m : Nat}, w' = w → n ≤ m → Made f m (k + 1) w' := fun e hm => by rw [e]; exact h.mono hm (by omega)
  cases c with
  | load => exact same t.2 (Nat.le_refl _)
  | openFile e g evs =>
    by_cases hs : e = d ∧ g = f ∧ a = .unit (.ok ())
    · have h1 := (t.1 hs).2
      split at h1
      · exact same h1 (Nat.le_refl _)
      · rw [h1]; exact h.step .reopen
    · exact same (t.2 hs).2 (Nat.le_refl _)
  | deleteFile e g evs =>
    by_cases hs : e = d ∧ g = f
    · rcases t.1 hs with ⟨-, -, h1⟩ | ⟨-, -, h1 | h1⟩
      · rw [h1]; exact made_fresh _ _ _
      · exact same h1 (Nat.le_refl _)
      · rw [h1]; exact made_fresh _ _ _
    · exact same (t.2 hs).2 (Nat.le_refl _)
  | call e g c =>
    show Made f (if e = d ∧ g = f then reach n [c] else n) _ _
    by_cases hs : e = d ∧ g = f
    · rw [if_pos hs]
      rcases t.1 hs with ⟨-, -, h1⟩ | ⟨-, -, -, h1⟩ | ⟨-, -, -, h1⟩
      · exact same h1 (reach_one_le n c)
      · exact same h1 (reach_one_le n c)
      · rw [h1]; exact h.step c
    · rw [if_neg hs]
      exact same (t.2 hs).2 (Nat.le_refl _)
  | _ => exact same t.2 (Nat.le_refl _)

/-- All that is known of a file after a history. -/
theorem made_vstep (hf : Plain f) {n k : Nat} (hs : Sep s) (h : Sim d f b s w) (hg : Good w) (hm : Made f n k w) {c : VCmd} (hok : VCmdOk c) (hk : VKeepsDir d c) :
    ∃ b' w', Sim d f b' (vstep s c).2 w' ∧ Good w' ∧ Made f (vreach d f n [c]) (k + 2) w' := by
  have all := cmds_ok (d := d) hok hk s
  have one : ∀ {s : Fs} {b : Bool} {w : World} {n k : Nat} (x : Cmd), Sep s → Sim d f b s w → Good w → Made f n k w → CmdOk x → KeepsDir d x →
      ∃ b' w', Sim d f b' (s.step x).2 w' ∧ Good w' ∧ Made f (reachC d f n x) (k + 1) w' := by
    intro s b w n k x hs h hg hm h1 h2
    obtain ⟨b', w', h', t⟩ := sim_step hs h h1 h2
    exact ⟨b', w', h', (trans_good (plain_noQ hf) h.name hg t).1, made_trans hm t⟩
  have single : ∀ x, c.cmds s = [x] → vreach d f n [c] = reachC d f n x →
      ∃ b' w', Sim d f b' (vstep s c).2 w' ∧ Good w' ∧ Made f (vreach d f n [c]) (k + 2) w' := by
    intro x hx hr
    have := all x (by rw [hx]; exact List.mem_singleton.2 rfl)
    obtain ⟨b', w', h1, h2, h3⟩ := one x hs h hg hm this.1 this.2
    refine ⟨b', w', ?_, h2, ?_⟩
    · show Sim d f b' (s.run (c.cmds s)) w'
      rw [hx]; exact h1
    · rw [hr]; exact h3.mono (Nat.le_refl _) (by omega)
  cases c with
  | other c => exact single c rfl (by cases c <;> rfl)
  | «open» e g evs => exact single _ rfl rfl
  | delete e g evs => exact single _ rfl rfl
  | «exists» e g evs => exact single _ rfl rfl
  | write e g o buf evs => exact single _ rfl rfl
  | fileSize e g => exact single _ rfl (by show n = if _ then _ else n; split <;> rfl)
  | truncate e g m evs => exact single _ rfl (by show n = if _ then _ else n; split <;> rfl)
  | sync e g => exact single _ rfl rfl
  | read e g start m evs =>
    have hl : reachC d f n (.call e g .length) = n := by show (if _ then _ else n) = n; split <;> rfl
    have hr : ∀ stop, reachC d f n (.call e g (.read start stop evs)) = n := by intro stop; show (if _ then _ else n) = n; split <;> rfl
    show ∃ b' w', Sim d f b' (s.run ((VCmd.read e g start m evs).cmds s)) w' ∧ Good w' ∧ Made f n (k + 2) w'
    obtain ⟨b1, w1, h1, h2, h3⟩ := one (.call e g .length) hs h hg hm ⟨hok, by simp⟩ (fun evs => by simp)
    rw [hl] at h3
    have hshort : ∃ b' w', Sim d f b' (s.run [.call e g .length]) w' ∧ Good w' ∧ Made f n (k + 2) w' :=
      ⟨b1, w1, h1, h2, h3.mono (Nat.le_refl _) (by omega)⟩
    show ∃ b' w', Sim d f b' (s.run (_ :: (match (s.step (.call e g .length)).1 with | .file (.num len) => _ | _ => _))) w' ∧ _ ∧ _
    split
    · split
      · obtain ⟨b2, w2, h4, h5, h6⟩ := one (.call e g (.read start _ evs)) (hs.step _) h1 h2 h3 ⟨hok, by simp⟩ (fun evs => by simp)
        rw [hr] at h6
        exact ⟨b2, w2, h4, h5, h6⟩
      · exact hshort
    · exact hshort

theorem made_vrun (hf : Plain f) : ∀ (cs : List VCmd) {s : Fs} {b : Bool} {w : World} {n k : Nat}, Sep s → Sim d f b s w → Good w → Made f n k w →
    (∀ c ∈ cs, VCmdOk c ∧ VKeepsDir d c) → ∃ b' w', Sim d f b' (vrun s cs) w' ∧ Good w' ∧ Made f (vreach d f n cs) (k + 2 * cs.length) w'
  | [], s, b, w, n, k, _, h, hg, hm, _ => ⟨b, w, h, hg, hm⟩
  | c :: cs, s, b, w, n, k, hsep, h, hg, hm, hc => by
    obtain ⟨b', w', h1, h2, h3⟩ := made_vstep hf hsep h hg hm (hc c (by simp)).1 (hc c (by simp)).2
    obtain ⟨b'', w'', h4, h5, h6⟩ := made_vrun hf cs (hsep.vstep c) h1 h2 h3 fun c hc' => hc c (by simp [hc'])
    refine ⟨b'', w'', h4, h5, ?_⟩
    rw [vreach_cons]
    exact h6.mono (Nat.le_refl _) (by rw [List.length_cons]; omega)

theorem Sep.vrun : ∀ (cs : List VCmd) {s : Fs}, Sep s → Sep (Browser.vrun s cs)
  | [], s, h => h
  | c :: cs, s, h => Sep.vrun cs (h.vstep c)

/-! ### Open files -/

/-- The directory and these of its files are open. -/
def Opened (d : Name) (o : List Name) (s : Fs) : Prop := ∃ dirs x, s.dirs = some dirs ∧ dirs d = some x ∧ ∀ g ∈ o, (x.files g).isSome

/-- A call on an open file is answered by the file. -/
theorem open_call {o : List Name} (ho : Opened d o s) (hfo : f ∈ o) (hf : Plain f) (hs : Sep s) (h : Sim d f b s w) (c : Call) (hc : c ≠ .reopen) :
    b = true ∧ w.handle.isSome ∧ (s.step (.call d f c)).1 = .file (step w c).1 := by
  obtain ⟨dirs, x, hd, hx, hfo'⟩ := ho
  have h1 := hfo' f hfo
  have h2 := (h.dir dirs hd x hx).2
  have hb : b = true := by
    cases b with
    | true => rfl
    | false => rw [h2] at h1; cases h1
  have hw : w.handle.isSome := by rw [h2, hb] at h1; exact h1
  refine ⟨hb, hw, ?_⟩
  obtain ⟨b', w', h', t⟩ := sim_step hs h (c := .call d f c) ⟨hf, hc⟩ (fun evs => by simp)
  rcases t.1 ⟨rfl, rfl⟩ with ⟨t1, -⟩ | ⟨t1, -⟩ | ⟨-, t1, -⟩
  · unfold Fs.step at t1
    dsimp only at t1
    rw [hd] at t1
    cases t1
  · rw [hb] at t1; cases t1
  · exact t1

/-- After these answers the file is open. -/
theorem handle_after {c : Call} (hw : w.handle.isSome) (h : (step w c).1 = .done (.ok ()) ∨ (∃ bs, (step w c).1 = .bytes (.ok bs)) ∨ ∃ n, (step w c).1 = .num n) :
    (step w c).2.handle.isSome := by
  have key : ∀ {α : Type} (r : Out α × File), (∃ a, r.1 = .ok a) → (after r).handle.isSome := by
    intro α r ⟨a, ha⟩
    unfold after
    rw [ha]; rfl
  match hh : w.handle with
  | none => rw [hh] at hw; cases hw
  | some cs =>
    unfold step at h ⊢
    cases c with
    | reopen => rfl
    | write o data evs =>
      rw [hh] at h ⊢
      refine key _ ?_
      rcases h with h | ⟨bs, h⟩ | ⟨n, h⟩
      · injection h with h; exact ⟨_, h⟩
      · cases h
      · cases h
    | truncate m evs =>
      rw [hh] at h ⊢
      refine key _ ?_
      rcases h with h | ⟨bs, h⟩ | ⟨n, h⟩
      · injection h with h; exact ⟨_, h⟩
      · cases h
      · cases h
    | read a e evs =>
      rw [hh] at h ⊢
      dsimp only at h ⊢
      generalize read (a, e) ⟨w.cache, w.name, cs, evs⟩ = r at h ⊢
      refine key r ?_
      rcases h with h | ⟨bs, h⟩ | ⟨n, h⟩
      · cases h
      · injection h with h; exact ⟨_, h⟩
      · cases h
    | length => rw [hh]; dsimp only; exact hw
    | put data evs =>
      rw [hh] at h ⊢
      refine key _ ?_
      rcases h with h | ⟨bs, h⟩ | ⟨n, h⟩
      · cases h
      · injection h with h
        revert h
        generalize (appendPrefixed data ⟨w.cache, w.name, cs, evs⟩).1 = r
        intro h
        cases r with
        | ok a => exact ⟨a, rfl⟩
        | _ => cases h
      · cases h
    | get id evs =>
      rw [hh] at h ⊢
      dsimp only at h ⊢
      split
      · rename_i hid
        rw [if_pos hid] at h
        refine key _ ?_
        rcases h with h | ⟨bs, h⟩ | ⟨n, h⟩
        · cases h
        · injection h with h; exact ⟨_, h⟩
        · cases h
      · exact hw

/-- After a call that was answered like this the same files are open. -/
theorem opened_call {o : List Name} (ho : Opened d o s) (hfo : f ∈ o) {c : Call} (hc : c ≠ .reopen)
    (h : (s.step (.call d f c)).1 = .file (.done (.ok ())) ∨ (∃ bs, (s.step (.call d f c)).1 = .file (.bytes (.ok bs))) ∨ ∃ n, (s.step (.call d f c)).1 = .file (.num n)) :
    Opened d o (s.step (.call d f c)).2 := by
  obtain ⟨dirs, x, hd, hx, hfo'⟩ := ho
  obtain ⟨cs, hcs⟩ := Option.isSome_iff_exists.1 (hfo' f hfo)
  have e : s.step (.call d f c) = (.file (s.call dirs d f c).1, (s.call dirs d f c).2) := by
    show (match s.dirs with | none => _ | some dirs => _) = _
    rw [hd]
  rw [e] at h ⊢
  dsimp only at h ⊢
  unfold Fs.call at h ⊢
  rw [hx] at h ⊢
  dsimp only at h ⊢
  rw [hcs] at h ⊢
  dsimp only at h ⊢
  rw [if_neg hc] at h ⊢
  have hh := handle_after (w := ⟨s.caches x.cache, f, some cs⟩) (c := c) rfl (by
    revert h
    split <;>
    · intro h
      rcases h with h | ⟨bs, h⟩ | ⟨n, h⟩
      · injection h with h; exact .inl h
      · injection h with h; exact .inr (.inl ⟨_, h⟩)
      · injection h with h; exact .inr (.inr ⟨_, h⟩))
  split
  · rename_i cs' hcs'
    refine ⟨_, { x with files := upd x.files f (some cs') }, setFile_dirs (s := { s with caches := _ }) hd _ _ _, ?_, ?_⟩
    · rw [upd_self, hx]; rfl
    · intro g hg
      show (upd x.files f (some cs') g).isSome
      unfold upd
      split
      · rfl
      · exact hfo' g hg
  · rename_i hn
    rw [hn] at hh; cases hh

theorem allOk_head {evs : List Ev} (h : AllOk evs) : evs.headD .ok = .ok := by
  cases evs with
  | nil => rfl
  | cons e evs => exact h e (by simp)

theorem browserOp_ok {α : Type} {evs : List Ev} (h : AllOk evs) (s : Fs) (f : Fs → Fs) (r : α) (g : Fs → Fs) : s.browserOp evs f r g = (.ok r, g (f s)) := by
  unfold Fs.browserOp
  rw [allOk_head h]

/-- The next call is served, and what is open afterwards. -/
theorem served_step {vs : List VCmd} {o : List Name} {c : VCmd} {cs : List VCmd} (hv : ∀ c ∈ vs, VCmdOk c ∧ VKeepsDir d c) (hr : ∀ f, vreach d f 0 (vs ++ [c]) < 2 ^ 31)
    (hn : 2 * vs.length < 2 ^ 64) (ho : Opened d o (vrun Fs.init vs)) (hs : Sound d o (c :: cs)) :
    VCmdOk c ∧ VKeepsDir d c ∧ Served c (vstep (vrun Fs.init vs) c).1 ∧ ∃ o', Opened d o' (vstep (vrun Fs.init vs) c).2 ∧ Sound d o' cs := by
  have hsep : Sep (vrun Fs.init vs) := Sep.vrun vs sep_init
  have known : ∀ {f : Name}, Plain f → f ∈ o → ∃ b w, Sim d f b (vrun Fs.init vs) w ∧ ∃ calls, run (fresh [] f) calls = w ∧ reach 0 calls ≤ vreach d f 0 vs ∧
      calls.length < 2 ^ 64 ∧ (run (fresh [] f) calls).handle.isSome := by
    intro f hf hfo
    obtain ⟨b, w, h1, h2, calls, h3, h4, h5⟩ := made_vrun (d := d) hf vs sep_init (sim_init (plain_noQ hf)) (good_fresh (plain_noQ hf)) (made_fresh f 0 0) hv
    refine ⟨b, w, h1, calls, h3, h4, by omega, ?_⟩
    rw [h3]
    exact (open_call ho hfo hf hsep h1 .length (by simp)).2.1
  have hu : ∀ f, Unused [] f := fun f e he => by cases he
  have hlt : ∀ f, vreach d f 0 vs < 2 ^ 31 := fun f => by
    have := hr f
    rw [vreach_append] at this
    exact Nat.lt_of_le_of_lt (vreach_le d f _ _) this
  revert hr hsep known ho hlt
  generalize vrun Fs.init vs = s
  intro hr ho hsep known hlt
  have runOne : ∀ x, s.run [x] = (s.step x).2 := fun x => rfl
  cases c with
  | other c => exact hs.elim
  | «open» e f evs =>
    obtain ⟨⟨rfl, hf, he⟩, hs⟩ := hs
    refine ⟨hf, fun evs => by simp, ?_⟩
    obtain ⟨dirs, x, hd, hx, hfo⟩ := ho
    have e1 : s.step (.openFile e f evs) = (.unit (s.openFile dirs e f evs).1, (s.openFile dirs e f evs).2) := by
      show (match s.dirs with | none => _ | some dirs => _) = _
      rw [hd]
    have key : (s.openFile dirs e f evs).1 = .ok () ∧ Opened e (f :: o) (s.openFile dirs e f evs).2 := by
      unfold Fs.openFile
      rw [hx]
      dsimp only
      split
      · rename_i cs hcs
        refine ⟨rfl, dirs, x, hd, hx, fun g hg => ?_⟩
        rcases List.mem_cons.1 hg with rfl | hg
        · rw [hcs]; rfl
        · exact hfo g hg
      · rw [browserOp_ok he]
        refine ⟨rfl, ?_⟩
        refine ⟨_, { x with files := upd x.files f (some (s.chunks x f)) }, setFile_dirs hd _ _ _, by rw [upd_self, hx]; rfl, fun g hg => ?_⟩
        show (upd x.files f _ g).isSome
        unfold upd
        split
        · rfl
        · rename_i hne
          exact hfo g ((List.mem_cons.1 hg).resolve_left hne)
    refine ⟨?_, f :: o, ?_, hs⟩
    · show VAns.ofAns _ _ (s.step (.openFile e f evs)).1 = _
      rw [e1]; dsimp only; rw [key.1]; rfl
    · show Opened e _ (s.step (.openFile e f evs)).2
      rw [e1]; exact key.2
  | delete e f evs =>
    obtain ⟨⟨rfl, hf, he⟩, hs⟩ := hs
    refine ⟨hf, fun evs => by simp, ?_⟩
    obtain ⟨dirs, x, hd, hx, hfo⟩ := ho
    have e1 : s.step (.deleteFile e f evs) = (.bool (s.deleteFile dirs e f evs).1, (s.deleteFile dirs e f evs).2) := by
      show (match s.dirs with | none => _ | some dirs => _) = _
      rw [hd]
    have key : (∃ r, (s.deleteFile dirs e f evs).1 = .ok r) ∧ Opened e (o.filter (· ≠ f)) (s.deleteFile dirs e f evs).2 := by
      unfold Fs.deleteFile
      rw [hx]
      dsimp only
      rw [browserOp_ok he]
      refine ⟨⟨_, rfl⟩, ?_⟩
      refine ⟨_, { x with files := upd x.files f none }, setFile_dirs (s := { s with caches := _ }) hd _ _ _, by rw [upd_self, hx]; rfl, fun g hg => ?_⟩
      have hg := List.mem_filter.1 hg
      have hne : g ≠ f := of_decide_eq_true hg.2
      show (upd x.files f none g).isSome
      rw [upd_ne _ _ hne]
      exact hfo g hg.1
    refine ⟨?_, _, ?_, hs⟩
    · show VAns.ofAns _ _ (s.step (.deleteFile e f evs)).1 = _
      obtain ⟨r, hr⟩ := key.1
      rw [e1]; dsimp only; rw [hr]; rfl
    · show Opened e _ (s.step (.deleteFile e f evs)).2
      rw [e1]; exact key.2
  | «exists» e f evs =>
    obtain ⟨⟨rfl, hf, he⟩, hs⟩ := hs
    refine ⟨hf, fun evs => by simp, ?_⟩
    have ho' := ho
    obtain ⟨dirs, x, hd, hx, hfo⟩ := ho
    have e1 : s.step (.fileExists e f evs) = (.bool (s.fileExists dirs e f evs).1, (s.fileExists dirs e f evs).2) := by
      show (match s.dirs with | none => _ | some dirs => _) = _
      rw [hd]
    have key : (∃ r, (s.fileExists dirs e f evs).1 = .ok r) ∧ Opened e o (s.fileExists dirs e f evs).2 := by
      unfold Fs.fileExists
      rw [hx]
      dsimp only
      split
      · exact ⟨⟨_, rfl⟩, ho'⟩
      · rw [browserOp_ok he]
        exact ⟨⟨_, rfl⟩, ho'⟩
    refine ⟨?_, o, ?_, hs⟩
    · show ∃ b, VAns.ofAns _ _ (s.step (.fileExists e f evs)).1 = _
      obtain ⟨r, hr⟩ := key.1
      rw [e1]; dsimp only; rw [hr]; exact ⟨r, rfl⟩
    · show Opened e _ (s.step (.fileExists e f evs)).2
      rw [e1]; exact key.2
  | read e f start n evs =>
    obtain ⟨⟨rfl, hf, he, hfo, hst⟩, hs⟩ := hs
    refine ⟨hf, fun evs => by simp, ?_⟩
    obtain ⟨b, w, hsim, calls, rfl, h4, h5, h6⟩ := known hf hfo
    obtain ⟨-, -, -, len, hl, hread⟩ := C44_succeeds_partial hf (hu f) (evs := evs) he h6
    obtain ⟨data, hdata⟩ := hread start (min len (start + n)) (Nat.lt_of_le_of_lt h4 (hlt f)) (by omega)
    have a1 := (open_call ho hfo hf hsep hsim .length (by simp)).2.2
    rw [hl] at a1
    have ho1 := opened_call ho hfo (c := .length) (by simp) (.inr (.inr ⟨len, a1⟩))
    obtain ⟨b1, w1, hsim1, t⟩ := sim_step hsep hsim (c := .call e f .length) ⟨hf, by simp⟩ (fun evs => by simp)
    have hw1 : w1 = run (fresh [] f) calls := by
      rcases t.1 ⟨rfl, rfl⟩ with ⟨-, -, t2⟩ | ⟨-, -, -, t2⟩ | ⟨-, -, -, t2⟩
      · exact t2
      · exact t2
      · rw [t2]; unfold step; dsimp only; split <;> rfl
    subst hw1
    have a2 := (open_call ho1 hfo hf (hsep.step _) hsim1 (.read start (min len (start + n)) evs) (by simp)).2.2
    rw [hdata] at a2
    have ho2 := opened_call ho1 hfo (c := .read start (min len (start + n)) evs) (by simp) (.inr (.inl ⟨data, a2⟩))
    have hdl : data.length = min len (start + n) - start := by
      obtain ⟨g1, g2⟩ := winv_fresh (cache := []) hf.ne (hu f)
      obtain ⟨g3, g4, -⟩ := log_possible calls g1
      have := (step_spec g4 (.read start (min len (start + n)) evs)).1
      rw [hdata] at this
      exact this.2.1
    refine ⟨?_, o, ?_, hs⟩
    · show ∃ bs, vread s e f start n evs = _ ∧ _
      have hstep : s.step (.call e f .length) = (.file (.num len), (s.step (.call e f .length)).2) := by rw [← a1]
      unfold vread
      rw [hstep]
      dsimp only
      rw [if_pos hst, a2]
      refine ⟨data.take (min len (start + n) - start), ?_, ?_⟩
      · show (if _ then _ else _) = _
        rw [if_pos (by omega)]
      · rw [List.length_take]; omega
    · show Opened e o (s.run _)
      rw [vread_cmds a1 hst]
      exact ho2
  | write e f start buf evs =>
    obtain ⟨⟨rfl, hf, he, hfo⟩, hs⟩ := hs
    refine ⟨hf, fun evs => by simp, ?_⟩
    obtain ⟨b, w, hsim, calls, rfl, h4, h5, h6⟩ := known hf hfo
    have hr' : reach 0 (calls ++ [.write start buf evs]) < 2 ^ 31 := by
      have := hr f
      rw [vreach_append] at this
      have h : vreach e f (vreach e f 0 vs) [.write e f start buf evs] = max (vreach e f 0 vs) (start + buf.length) := if_pos ⟨rfl, rfl⟩
      rw [h] at this
      rw [reach_append]
      show max (reach 0 calls) (start + buf.length) < 2 ^ 31
      omega
    have hw := (C44_succeeds_partial hf (hu f) (evs := evs) he h6).1 start buf h5 hr'
    have a1 := (open_call ho hfo hf hsep hsim (.write start buf evs) (by simp)).2.2
    rw [hw] at a1
    refine ⟨?_, o, opened_call ho hfo (by simp) (.inl a1), hs⟩
    show VAns.ofFile _ _ _ (s.step (.call e f (.write start buf evs))).1 = _
    rw [a1]; rfl
  | fileSize e f =>
    obtain ⟨⟨rfl, hf, hfo⟩, hs⟩ := hs
    refine ⟨hf, fun evs => by simp, ?_⟩
    obtain ⟨b, w, hsim, calls, rfl, h4, h5, h6⟩ := known hf hfo
    obtain ⟨-, -, -, len, hl, -⟩ := C44_succeeds_partial hf (hu f) (evs := []) (fun e he => by cases he) h6
    have a1 := (open_call ho hfo hf hsep hsim .length (by simp)).2.2
    rw [hl] at a1
    refine ⟨?_, o, opened_call ho hfo (by simp) (.inr (.inr ⟨_, a1⟩)), hs⟩
    show ∃ n, VAns.ofFile _ _ _ (s.step (.call e f .length)).1 = _
    rw [a1]; exact ⟨_, rfl⟩
  | truncate e f n evs =>
    obtain ⟨⟨rfl, hf, he, hfo⟩, hs⟩ := hs
    refine ⟨hf, fun evs => by simp, ?_⟩
    obtain ⟨b, w, hsim, calls, rfl, h4, h5, h6⟩ := known hf hfo
    have hw := (C44_succeeds_partial hf (hu f) (evs := evs) he h6).2.1 n h5 (Nat.lt_of_le_of_lt h4 (hlt f))
    have a1 := (open_call ho hfo hf hsep hsim (.truncate n evs) (by simp)).2.2
    rw [hw] at a1
    refine ⟨?_, o, opened_call ho hfo (by simp) (.inl a1), hs⟩
    show VAns.ofFile _ _ _ (s.step (.call e f (.truncate n evs))).1 = _
    rw [a1]; rfl
  | sync e f =>
    obtain ⟨⟨rfl, hf, hfo⟩, hs⟩ := hs
    refine ⟨hf, fun evs => by simp, ?_⟩
    have ho' := ho
    obtain ⟨dirs, x, hd, hx, hfo'⟩ := ho
    have e1 : s.step (.sync e f) = (.unit (.ok ()), s) := by
      show (match s.dirs with | none => _ | some dirs => _) = _
      rw [hd]
      dsimp only
      unfold Fs.sync
      rw [hx]
      dsimp only
      rw [if_pos (hfo' f hfo)]
    refine ⟨?_, o, ?_, hs⟩
    · show VAns.ofAns _ _ (s.step (.sync e f)).1 = _
      rw [e1]; rfl
    · show Opened e o (s.step (.sync e f)).2
      rw [e1]; exact ho'

theorem served_run : ∀ (cs : List VCmd) {vs : List VCmd} {o : List Name}, (∀ c ∈ vs, VCmdOk c ∧ VKeepsDir d c) → (∀ f, vreach d f 0 (vs ++ cs) < 2 ^ 31) →
    2 * (vs.length + cs.length) < 2 ^ 64 → Opened d o (vrun Fs.init vs) → Sound d o cs → ∀ e ∈ vlog (vrun Fs.init vs) cs, Served e.1 e.2
  | [], vs, o, _, _, _, _, _, e, he => by cases he
  | c :: cs, vs, o, hv, hr, hn, ho, hs, e, he => by
    rw [List.length_cons] at hn
    obtain ⟨h1, h2, h3, o', h4, h5⟩ := served_step hv (fun f => by
      have := hr f
      rw [show vs ++ c :: cs = (vs ++ [c]) ++ cs by simp, vreach_append] at this
      exact Nat.lt_of_le_of_lt (vreach_le d f _ _) this) (by omega) ho hs
    rcases List.mem_cons.1 he with rfl | he
    · exact h3
    · have e1 : vrun Fs.init (vs ++ [c]) = (vstep (vrun Fs.init vs) c).2 := by rw [vrun_append]; rfl
      refine served_run cs (vs := vs ++ [c]) (o := o') ?_ ?_ ?_ ?_ h5 e ?_
      · intro x hx
        rcases List.mem_append.1 hx with hx | hx
        · exact hv x hx
        · cases List.mem_singleton.1 hx; exact ⟨h1, h2⟩
      · intro f
        rw [List.append_assoc]; exact hr f
      · rw [List.length_append, List.length_singleton]; omega
      · rw [e1]; exact h4
      · rw [e1]; exact he

end Radix.Browser
