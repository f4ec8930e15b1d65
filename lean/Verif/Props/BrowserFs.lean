import Verif.Proofs.BrowserFsSim
import Verif.Props.Browser

/-
C63 to C67: the whole browser file system, with many directories and files, and what SQLite reads.

A history is a list of calls (`Cmd`) on directories and files, each with what happens to its cache operations (success, failure, or the page is closed
before or after the operation), starting in a browser without data. `Fs.log` is what the program sees. Which calls of a history are about one file is said by
`fileLog` (Spec/Fs.lean).
-/

set_option linter.unusedVariables false

namespace Radix.Browser

open Radix.Spec

/-! ### C63: files do not disturb each other -/

/-- **C63** (partial: for plain file names, see `C63_false`). For every history of calls on any number of directories and files, in which the file `f` in
`d` is not deleted, what is seen of that file is exactly what is seen if the same calls are made on it in a browser that has no other file. Other
files and directories can be opened, written, truncated and deleted in between, cache operations of all files can fail, and the page can be closed at
any time. -/
theorem C63_alone_partial {d f : Name} (hf : Plain f) {cs : List Cmd} (hc : ∀ c ∈ cs, CmdOk c ∧ Keeps d f c) :
    fileLog d f false (Fs.init.log cs) = log (fresh [] f) ((fileLog d f false (Fs.init.log cs)).map (·.1)) :=
  fileLog_alone cs sep_init (sim_init (plain_noQ hf)) hc

/-- **C63** (partial). For every history in which the directory `d` is not deleted there are contents of the file `f` in `d` between the calls, starting
with nothing, that explain all that was seen of it; only calls on this file change them. -/
theorem C63_contents_partial {d f : Name} (hf : Plain f) {cs : List Cmd} (hc : ∀ c ∈ cs, CmdOk c ∧ KeepsDir d c) :
    ∃ v, FsPossible d f nothing (Fs.init.log cs) v := by
  obtain ⟨b, w, -, -, h⟩ := sim_run cs sep_init (sim_init (plain_noQ hf)) (good_fresh (plain_noQ hf)) hc
  rw [(winv_fresh (cache := []) (plain_noQ hf) fun e he => by cases he).2] at h
  exact ⟨_, h⟩

def dirD : Name := "d".toList
def dirE : Name := "e".toList
def fileA : Name := "a".toList
def fileB : Name := "b".toList

theorem plain_a : Plain fileA := ⟨by decide +kernel, by decide, by decide⟩
theorem plain_b : Plain fileB := ⟨by decide +kernel, by decide, by decide⟩

/-- Two files in one directory and one in another, the page is closed within a write and loaded again. -/
def exCmds : List Cmd :=
  [.load, .openDir dirD [], .openDir dirE [], .openFile dirD fileA [], .openFile dirD fileB [], .openFile dirE fileA [],
    .call dirD fileA (.write 0 [1, 2, 3] []), .call dirD fileB (.write 0 [4, 5, 6, 7] []), .call dirE fileA (.write 1 [8] []),
    .deleteFile dirD fileB [], .call dirE fileA (.write 0 [9] [.crash false]), .call dirD fileA (.read 0 3 []),
    .load, .openDir dirD [], .openFile dirD fileA [], .call dirD fileA (.read 0 3 []), .fileExists dirD fileB []]

/-- Whether the conditions of the theorems hold (for examples). -/
def okCmd (d f : Name) : Cmd → Bool
  | .openFile _ g _ => g = fileA ∨ g = fileB
  | .fileExists _ g _ => g = fileA ∨ g = fileB
  | .deleteFile e g _ => (g = fileA ∨ g = fileB) ∧ ¬ (e = d ∧ g = f)
  | .sync _ g => g = fileA ∨ g = fileB
  | .call _ g c => (g = fileA ∨ g = fileB) ∧ c ≠ .reopen
  | .deleteDir e _ => e ≠ d
  | _ => true

theorem okCmd_spec {d f : Name} {c : Cmd} (h : okCmd d f c = true) : CmdOk c ∧ Keeps d f c := by
  have plain : ∀ {g : Name}, g = fileA ∨ g = fileB → Plain g := by
    intro g hg
    rcases hg with rfl | rfl
    · exact plain_a
    · exact plain_b
  cases c with
  | deleteFile e g evs =>
    have h := of_decide_eq_true h
    refine ⟨plain h.1, fun evs => (by simp), fun evs' e => h.2 ?_⟩
    cases e; exact ⟨rfl, rfl⟩
  | deleteDir e evs =>
    have h := of_decide_eq_true h
    refine ⟨trivial, fun evs e => h ?_, fun evs => by simp⟩
    cases e; rfl
  | openFile e g evs => exact ⟨plain (of_decide_eq_true h), fun evs => by simp, fun evs => by simp⟩
  | fileExists e g evs => exact ⟨plain (of_decide_eq_true h), fun evs => by simp, fun evs => by simp⟩
  | sync e g => exact ⟨plain (of_decide_eq_true h), fun evs => by simp, fun evs => by simp⟩
  | call e g c => exact ⟨⟨plain (of_decide_eq_true h).1, (of_decide_eq_true h).2⟩, fun evs => by simp, fun evs => by simp⟩
  | load => exact ⟨trivial, fun evs => by simp, fun evs => by simp⟩
  | unmount => exact ⟨trivial, fun evs => by simp, fun evs => by simp⟩
  | openDir e evs => exact ⟨trivial, fun evs => by simp, fun evs => by simp⟩

theorem okCmd_all {d f : Name} {cs : List Cmd} (h : cs.all (okCmd d f) = true) : ∀ c ∈ cs, CmdOk c ∧ Keeps d f c :=
  fun c hc => okCmd_spec (List.all_eq_true.1 h c hc)

example : ∀ c ∈ exCmds, CmdOk c ∧ Keeps dirD fileA c := okCmd_all (by decide +kernel)

/-- The log of the example: after the page was loaded again the file has its bytes. -/
example : fileLog dirD fileA false (Fs.init.log exCmds) =
    [(.reopen, .opened), (.write 0 [1, 2, 3] [], .done (.ok ())), (.reopen, .opened), (.read 0 3 [], .bytes (.ok [1, 2, 3]))] := by decide +kernel

/-- **C63, C64**: for other names it is false. Deleting the file `a?b` deletes the file `a`: its bytes are gone after the page was loaded again. -/
theorem C63_false :
    (Fs.init.log [.load, .openDir dirD [], .openFile dirD fileA [], .call dirD fileA (.write 0 [1, 2, 3] []), .deleteFile dirD "a?b".toList [],
      .load, .openDir dirD [], .fileExists dirD fileA []]).map (·.2) =
    [.unit (.ok ()), .unit (.ok ()), .unit (.ok ()), .file (.done (.ok ())), .bool (.ok true), .unit (.ok ()), .unit (.ok ()), .bool (.ok false)] := by
  decide +kernel

/-! ### C64: deleting a file -/

/-- The state after a file was deleted is as if it had never been there. -/
theorem delete_sim {d f : Name} {s : Fs} {b : Bool} {w : World} (hf : Plain f) (hsep : Sep s) (h : Sim d f b s w) {evs : List Ev} {r : Bool}
    (ha : (s.step (.deleteFile d f evs)).1 = .bool (.ok r)) : Sim d f false (s.step (.deleteFile d f evs)).2 (fresh [] f) := by
  obtain ⟨b', w', h', ht⟩ := sim_step hsep h (c := .deleteFile d f evs) hf (fun evs => by simp)
  rcases ht.1 ⟨rfl, rfl⟩ with ⟨-, rfl, rfl⟩ | ⟨h1, -⟩
  · exact h'
  · exact absurd ha (h1 r)

/-- **C64** (partial: for plain file names, see `C63_false`). For every history, after `delete_file` has returned `Ok`, what is seen of the file in any calls that follow, in this session and in
later ones, is what is seen of a file that never existed. -/
theorem C64_gone_partial {d f : Name} (hf : Plain f) {cs : List Cmd} (hc : ∀ c ∈ cs, CmdOk c ∧ KeepsDir d c) {evs : List Ev} {r : Bool}
    (ha : ((Fs.init.run cs).step (.deleteFile d f evs)).1 = .bool (.ok r)) {more : List Cmd} (hm : ∀ c ∈ more, CmdOk c ∧ Keeps d f c) :
    fileLog d f false (((Fs.init.run cs).step (.deleteFile d f evs)).2.log more) =
      log (fresh [] f) ((fileLog d f false (((Fs.init.run cs).step (.deleteFile d f evs)).2.log more)).map (·.1)) := by
  obtain ⟨b, w, h, -⟩ := sim_run cs sep_init (sim_init (plain_noQ hf)) (good_fresh (plain_noQ hf)) hc
  exact fileLog_alone more ((sep_init.run cs).step _) (delete_sim hf (sep_init.run cs) h ha) hm

theorem chunks_of {d f : Name} {s : Fs} {b : Bool} {w : World} (h : Sim d f b s w) {dirs : Name → Option Dir} (hd : s.dirs = some dirs) {x : Dir}
    (hx : dirs d = some x) : own f (s.caches x.cache) = own f w.cache ∧ s.chunks x f = chunksOf w.cache f := by
  have hst := (h.dir dirs hd x hx).1
  have e : own f (s.caches x.cache) = own f w.cache := by rw [← h.entries, dirCache_of hst]
  refine ⟨e, ?_⟩
  unfold Fs.chunks
  rw [← chunksOf_own, ← chunksOf_own f w.cache, e]

/-- What `file_exists` returns if it returns `Ok`. -/
theorem exists_answer {d f : Name} {s : Fs} {b : Bool} {w : World} (h : Sim d f b s w) {evs : List Ev} {r : Bool}
    (ha : (s.step (.fileExists d f evs)).1 = .bool (.ok r)) :
    (∃ dirs x, s.dirs = some dirs ∧ dirs d = some x) ∧ (s.step (.fileExists d f evs)).2 = s ∧ r = (b || !(chunksOf w.cache f).isEmpty) := by
  unfold Fs.step at ha ⊢
  dsimp only at ha ⊢
  split at ha
  · cases ha
  · rename_i dirs hd
    rw [hd]
    dsimp only
    unfold Fs.fileExists at ha ⊢
    match hx : dirs d with
    | none => rw [hx] at ha; cases ha
    | some x =>
      rw [hx] at ha
      dsimp only at ha ⊢
      obtain ⟨-, hfl⟩ := h.dir dirs hd x hx
      refine ⟨⟨dirs, x, rfl, hx⟩, ?_⟩
      match hcs : x.files f with
      | some cs =>
        rw [hcs] at ha hfl
        cases ha
        refine ⟨rfl, ?_⟩
        cases b with
        | true => rfl
        | false => cases hfl
      | none =>
        rw [hcs] at ha hfl
        dsimp only at ha ⊢
        have hb : b = false := by
          cases b with
          | false => rfl
          | true =>
            obtain ⟨-, cs, hcs'⟩ := h.isOpen dirs hd rfl
            rw [if_pos rfl, hcs'] at hfl
            cases hfl
        revert ha
        rw [(chunks_of h hd hx).2, hb]
        refine browserOp_cases s evs id _ id (fun p => Ans.bool p.1 = Ans.bool (.ok r) → p.2 = s ∧ r = _) ?_ ?_ ?_ ?_
        · intro ha; cases ha; exact ⟨rfl, rfl⟩
        · intro ha; cases ha
        · intro ha; cases ha
        · intro ha; cases ha

/-- **C64** (partial). Right after `delete_file` has returned `Ok`, `file_exists` returns no other `Ok` than `Ok(false)`. -/
theorem C64_not_exists_partial {d f : Name} (hf : Plain f) {cs : List Cmd} (hc : ∀ c ∈ cs, CmdOk c ∧ KeepsDir d c) {evs evs' : List Ev} {r e : Bool}
    (ha : ((Fs.init.run cs).step (.deleteFile d f evs)).1 = .bool (.ok r))
    (he : (((Fs.init.run cs).step (.deleteFile d f evs)).2.step (.fileExists d f evs')).1 = .bool (.ok e)) : e = false := by
  obtain ⟨b, w, h, -⟩ := sim_run cs sep_init (sim_init (plain_noQ hf)) (good_fresh (plain_noQ hf)) hc
  exact (exists_answer (delete_sim hf (sep_init.run cs) h ha) he).2.2

/-- What `delete_file` returns if it returns `Ok`. -/
theorem delete_answer {d f : Name} (hf : Plain f) {s : Fs} {b : Bool} {w : World} (h2 : Sim d f b s w) (hg : Good w) {evs : List Ev} {r : Bool}
    (ha : (s.step (.deleteFile d f evs)).1 = .bool (.ok r)) : r = !(chunksOf w.cache f).isEmpty := by
  have hq := plain_noQ hf
  have key : ∀ {dirs x}, s.dirs = some dirs → dirs d = some x → (s.caches x.cache).hasPath f = !(chunksOf w.cache f).isEmpty := by
    intro dirs x hd hx
    have hown := (chunks_of h2 hd hx).1
    have hgo := hg.own
    rw [h2.name] at hgo
    rw [hgo] at hown
    have e1 : (s.caches x.cache).hasPath f = !(own f (s.caches x.cache)).isEmpty := by
      unfold Cache.hasPath Browser.own
      rw [path_name hq]
      induction s.caches x.cache with
      | nil => rfl
      | cons e es ih =>
        rw [List.any_cons, ih, List.filter_cons]
        by_cases hp : List.takeWhile (fun x => decide (x ≠ '?')) e.1 = '/' :: f
        · simp only [hp, decide_true, if_true, Bool.true_or, List.isEmpty_cons, Bool.not_false]
        · simp only [hp, decide_false, Bool.false_or, Bool.false_eq_true, ↓reduceIte]
    rw [e1, hown]
    match hcache : w.cache with
    | [] => rfl
    | e :: es =>
      have : chunksOf w.cache w.name ≠ [] := fun hn => by
        have := hg.nil hn
        rw [hcache] at this
        cases this
      rw [h2.name, hcache] at this
      cases hcs : chunksOf (e :: es) f with
      | nil => exact absurd hcs this
      | cons _ _ => rfl
  revert ha
  unfold Fs.step
  dsimp only
  split
  · intro ha; cases ha
  · rename_i dirs hd
    dsimp only
    unfold Fs.deleteFile
    split
    · intro ha; cases ha
    · rename_i x hx
      rw [key hd hx]
      refine browserOp_cases s evs _ _ _ (fun p => Ans.bool p.1 = Ans.bool (.ok r) → r = _) ?_ ?_ ?_ ?_
      · intro ha; cases ha; rfl
      · intro ha; cases ha
      · intro ha; cases ha
      · intro ha; cases ha

/-- **C64** (partial). If the file is not open (as after the page was loaded), `delete_file` returns what `file_exists` returned just before: whether there was something to delete. -/
theorem C64_answer_partial {d f : Name} (hf : Plain f) {cs : List Cmd} (hc : ∀ c ∈ cs, CmdOk c ∧ KeepsDir d c) {evs evs' oevs : List Ev} {r e : Bool}
    (ho : ((Fs.init.run (cs ++ [.load])).step (.openDir d oevs)).1 = .unit (.ok ()))
    (he : ((Fs.init.run (cs ++ [.load, .openDir d oevs])).step (.fileExists d f evs')).1 = .bool (.ok e))
    (ha : ((Fs.init.run (cs ++ [.load, .openDir d oevs])).step (.deleteFile d f evs)).1 = .bool (.ok r)) : r = e := by
  have hrun : ∀ (a b : List Cmd) (s : Fs), s.run (a ++ b) = (s.run a).run b := by
    intro a
    induction a with
    | nil => intro b s; rfl
    | cons c a ih => intro b s; exact ih b (s.step c).2
  obtain ⟨b0, w0, h0, hg0, -⟩ := sim_run cs sep_init (sim_init (plain_noQ hf)) (good_fresh (plain_noQ hf)) hc
  rw [hrun] at he ha
  have hs0 := sep_init.run cs
  obtain ⟨b1, w1, h1, t1⟩ := sim_step hs0 h0 (c := .load) trivial (fun evs => by simp)
  obtain ⟨b2, w2, h2, t2⟩ := sim_step (hs0.step .load) h1 (c := .openDir d oevs) trivial (fun evs => by simp)
  obtain ⟨rfl, rfl⟩ := t1
  obtain ⟨rfl, rfl⟩ := t2
  obtain ⟨⟨dirs, x, hd, hx⟩, -, h3⟩ := exists_answer h2 he
  rw [h3]
  exact delete_answer hf h2 hg0 ha

/-- What `length` says about the chunks of a file. -/
theorem length_answer {d f : Name} (hf : Plain f) {s : Fs} (hs : Sep s) {b : Bool} {w : World} (h : Sim d f b s w) (hg : Good w) {n : Nat} (hn : 0 < n)
    (hl : (s.step (.call d f .length)).1 = .file (.num n)) : chunksOf w.cache f ≠ [] := by
  obtain ⟨b', w', h', t⟩ := sim_step hs h (c := .call d f .length) ⟨hf, by simp⟩ (fun evs => by simp)
  rcases t.1 ⟨rfl, rfl⟩ with ⟨t1, -⟩ | ⟨-, t1, -⟩ | ⟨-, t1, -⟩
  · rw [t1] at hl; cases hl
  · rw [t1] at hl; cases hl
  · rw [t1] at hl
    have hl : (step w .length).1 = .num n := by injection hl
    unfold step at hl
    dsimp only at hl
    split at hl
    · cases hl
    · rename_i ch hch
      have e := hg.1.2 ch hch
      rw [h.name] at e
      intro hnil
      rw [hnil] at e
      subst e
      injection hl with hl
      have : length ⟨w.cache, w.name, [], []⟩ = 0 := rfl
      omega

/-- **C64** (partial). Also if the file is open: `delete_file` does not return `Ok(true)` if `file_exists` would return `Ok(false)`, and it does not return `Ok(false)`
if the length of the file is more than 0. (What remains is an opened file of length 0, see `C64_false`.) -/
theorem C64_answer_open_partial {d f : Name} (hf : Plain f) {cs : List Cmd} (hc : ∀ c ∈ cs, CmdOk c ∧ KeepsDir d c) {evs evs' : List Ev} {r : Bool}
    (ha : ((Fs.init.run cs).step (.deleteFile d f evs)).1 = .bool (.ok r)) :
    (∀ e, ((Fs.init.run cs).step (.fileExists d f evs')).1 = .bool (.ok e) → r = true → e = true) ∧
    ∀ n, ((Fs.init.run cs).step (.call d f .length)).1 = .file (.num n) → 0 < n → r = true := by
  obtain ⟨b, w, h, hg, -⟩ := sim_run cs sep_init (sim_init (plain_noQ hf)) (good_fresh (plain_noQ hf)) hc
  have hr := delete_answer hf h hg ha
  refine ⟨fun e he hrt => ?_, fun n hl hn => ?_⟩
  · rw [(exists_answer h he).2.2, ← hr, hrt, Bool.or_true]
  · have := length_answer hf (sep_init.run cs) h hg hn hl
    rw [hr]
    cases hcs : chunksOf w.cache f with
    | nil => exact absurd hcs this
    | cons _ _ => rfl

/-- **C64** is false in that the result of `delete_file` does not always say whether there was something to delete: a file that was opened exists, `delete_file` returns
`Ok(false)`, and then it does not exist. -/
theorem C64_false :
    (Fs.init.log [.load, .openDir dirD [], .openFile dirD fileA [], .fileExists dirD fileA [], .deleteFile dirD fileA [], .fileExists dirD fileA []]).map (·.2) =
    [.unit (.ok ()), .unit (.ok ()), .unit (.ok ()), .bool (.ok true), .bool (.ok false), .bool (.ok false)] := by decide +kernel

/-- A file with bytes is deleted and opened again: it is empty, and the other file has its bytes. -/
example :
    (Fs.init.log [.load, .openDir dirD [], .openFile dirD fileA [], .openFile dirD fileB [], .call dirD fileA (.write 0 [1, 2, 3] []), .call dirD fileB (.write 0 [4] []),
      .deleteFile dirD fileA [], .fileExists dirD fileA [], .openFile dirD fileA [], .call dirD fileA .length, .call dirD fileB (.read 0 1 [])]).map (·.2) =
    [.unit (.ok ()), .unit (.ok ()), .unit (.ok ()), .unit (.ok ()), .file (.done (.ok ())), .file (.done (.ok ())), .bool (.ok true), .bool (.ok false), .unit (.ok ()),
      .file (.num 0), .file (.bytes (.ok [4]))] := by decide +kernel

/-! ### C65: file_exists -/

/-- **C65** (partial: an opened file without bytes is forgotten when the page is loaded again, see `C65_false`). If `file_exists` returns `Ok(false)`, what is seen of
the file in any calls that follow is what is seen of a file that never existed. -/
theorem C65_absent_partial {d f : Name} (hf : Plain f) {cs : List Cmd} (hc : ∀ c ∈ cs, CmdOk c ∧ KeepsDir d c) {evs : List Ev}
    (ha : ((Fs.init.run cs).step (.fileExists d f evs)).1 = .bool (.ok false)) {more : List Cmd} (hm : ∀ c ∈ more, CmdOk c ∧ Keeps d f c) :
    fileLog d f false (((Fs.init.run cs).step (.fileExists d f evs)).2.log more) =
      log (fresh [] f) ((fileLog d f false (((Fs.init.run cs).step (.fileExists d f evs)).2.log more)).map (·.1)) := by
  obtain ⟨b, w, h, hg, -⟩ := sim_run cs sep_init (sim_init (plain_noQ hf)) (good_fresh (plain_noQ hf)) hc
  obtain ⟨-, h1, h2⟩ := exists_answer h ha
  rw [h1]
  refine fileLog_alone more (sep_init.run cs) ?_ hm
  have h2 := h2.symm
  rw [Bool.or_eq_false_iff] at h2
  obtain ⟨rfl, h3⟩ := h2
  have h3 : chunksOf w.cache f = [] := by simpa using h3
  have hnil := hg.nil (by rw [h.name]; exact h3)
  exact ⟨h.noQ, rfl, by rw [h.entries, hnil]; rfl, h.dir, fun _ _ hb => by cases hb⟩

/-- **C65** (partial). If the length of the file was more than 0, then `file_exists` returns no other `Ok` than `Ok(true)`, also after any calls other than calls on this file, also
after the page was loaded again. -/
theorem C65_present_partial {d f : Name} (hf : Plain f) {cs : List Cmd} (hc : ∀ c ∈ cs, CmdOk c ∧ KeepsDir d c) {n : Nat} (hn : 0 < n)
    (hl : ((Fs.init.run cs).step (.call d f .length)).1 = .file (.num n)) {mid : List Cmd}
    (hm : ∀ c ∈ mid, CmdOk c ∧ Keeps d f c ∧ ∀ x, c ≠ .call d f x) {evs : List Ev} {r : Bool}
    (ha : (((Fs.init.run cs).run mid).step (.fileExists d f evs)).1 = .bool (.ok r)) : r = true := by
  obtain ⟨b, w, h, hg, -⟩ := sim_run cs sep_init (sim_init (plain_noQ hf)) (good_fresh (plain_noQ hf)) hc
  have hne := length_answer hf (sep_init.run cs) h hg hn hl
  have hw : ∀ (mid : List Cmd) {s : Fs} {b : Bool} {w : World}, Sep s → Sim d f b s w → (∀ c ∈ mid, CmdOk c ∧ Keeps d f c ∧ ∀ x, c ≠ .call d f x) →
      ∃ b' w', Sim d f b' (s.run mid) w' ∧ w'.cache = w.cache := by
    intro mid
    induction mid with
    | nil => intro s b w _ h _; exact ⟨b, w, h, rfl⟩
    | cons c mid ih =>
      intro s b w hsep h hm
      obtain ⟨h1, h2, h3⟩ := hm c (by simp)
      obtain ⟨b', w', h', t⟩ := sim_step hsep h h1 h2.1
      obtain ⟨b'', w'', h4, h5⟩ := ih (hsep.step c) h' fun c hc => hm c (by simp [hc])
      refine ⟨b'', w'', h4, h5.trans ?_⟩
      cases c with
      | openFile e g evs =>
        by_cases hs : e = d ∧ g = f ∧ (s.step (.openFile e g evs)).1 = .unit (.ok ())
        · rw [(t.1 hs).2]
          split <;> rfl
        · rw [(t.2 hs).2]
      | deleteFile e g evs => rw [(t.2 fun hs => h2.2 evs (by rw [hs.1, hs.2])).2]
      | call e g x => rw [(t.2 fun hs => h3 x (by rw [hs.1, hs.2])).2]
      | _ => rw [t.2]
  obtain ⟨b', w', h', e⟩ := hw mid (sep_init.run cs) h hm
  rw [(exists_answer h' ha).2.2, e]
  cases hcs : chunksOf w.cache f with
  | nil => exact absurd hcs hne
  | cons _ _ => simp

/-- **C65** (partial). `file_exists` returns no other `Ok` than `Ok(false)` for a file that was never opened. -/
theorem C65_never_opened_partial {d f : Name} (hf : Plain f) {cs : List Cmd} (hc : ∀ c ∈ cs, CmdOk c ∧ KeepsDir d c) (ho : ∀ evs, .openFile d f evs ∉ cs) {evs : List Ev} {r : Bool}
    (ha : ((Fs.init.run cs).step (.fileExists d f evs)).1 = .bool (.ok r)) : r = false := by
  have key : ∀ (cs : List Cmd) {s : Fs}, Sep s → Sim d f false s (fresh [] f) → (∀ c ∈ cs, CmdOk c ∧ KeepsDir d c) → (∀ evs, .openFile d f evs ∉ cs) →
      Sim d f false (s.run cs) (fresh [] f) := by
    intro cs
    induction cs with
    | nil => intro s _ h _ _; exact h
    | cons c cs ih =>
      intro s hsep h hm ho
      obtain ⟨h1, h2⟩ := hm c (by simp)
      obtain ⟨b', w', h', t⟩ := sim_step hsep h h1 h2
      have : b' = false ∧ w' = fresh [] f := by
        cases c with
        | openFile e g evs => exact t.2 fun hs => ho evs (by rw [hs.1, hs.2.1]; simp)
        | deleteFile e g evs =>
          by_cases hs : e = d ∧ g = f
          · rcases t.1 hs with ⟨-, t⟩ | ⟨-, t1, t2 | t2⟩
            · exact t
            · exact ⟨t1, t2⟩
            · exact ⟨t1, t2⟩
          · exact t.2 hs
        | call e g x =>
          by_cases hs : e = d ∧ g = f
          · rcases t.1 hs with ⟨-, t⟩ | ⟨-, -, t⟩ | ⟨t, -⟩
            · exact t
            · exact t
            · cases t
          · exact t.2 hs
        | _ => exact t
      obtain ⟨rfl, rfl⟩ := this
      exact ih (hsep.step c) h' (fun c hc => hm c (by simp [hc])) fun evs hh => ho evs (by simp [hh])
  exact (exists_answer (key cs sep_init (sim_init (plain_noQ hf)) hc ho) ha).2.2

/-- The three cases: a file with bytes exists after the page was loaded again, a file that was never opened does not. -/
example :
    (Fs.init.log [.load, .openDir dirD [], .openFile dirD fileA [], .call dirD fileA (.write 0 [1, 2, 3] []), .call dirD fileA .length, .load, .openDir dirD [], .fileExists dirD fileA [],
      .fileExists dirD fileB []]).map (·.2) =
    [.unit (.ok ()), .unit (.ok ()), .unit (.ok ()), .file (.done (.ok ())), .file (.num 3), .unit (.ok ()), .unit (.ok ()), .bool (.ok true), .bool (.ok false)] := by decide +kernel

/-- **C65** is false: a file that was opened exists until the page is loaded again, and then it does not, if nothing was written to it. -/
theorem C65_false :
    (Fs.init.log [.load, .openDir dirD [], .openFile dirD fileA [], .fileExists dirD fileA [], .load, .openDir dirD [], .fileExists dirD fileA []]).map (·.2) =
    [.unit (.ok ()), .unit (.ok ()), .unit (.ok ()), .bool (.ok true), .unit (.ok ()), .unit (.ok ()), .bool (.ok false)] := by decide +kernel

/-! ### C66: deleting a directory -/

/-- **C66** (partial: only from the next session on, see `C66_false`). For every history, also with directories deleted before: after `delete_dir` has returned `Ok` and the page
was loaded again, what is seen of any file of the directory is what is seen of a file that never existed. -/
theorem C66_next_session_partial {d f : Name} (hf : Plain f) {cs : List Cmd} {evs : List Ev} {r : Bool}
    (ha : ((Fs.init.run cs).step (.deleteDir d evs)).1 = .bool (.ok r)) {more : List Cmd} (hm : ∀ c ∈ more, CmdOk c ∧ Keeps d f c) :
    fileLog d f false (((Fs.init.run cs).step (.deleteDir d evs)).2.log (.load :: more)) =
      log (fresh [] f) ((fileLog d f false (((Fs.init.run cs).step (.deleteDir d evs)).2.log (.load :: more))).map (·.1)) := by
  have hst : ((Fs.init.run cs).step (.deleteDir d evs)).2.storage d = none := by
    revert ha
    generalize Fs.init.run cs = s
    unfold Fs.step
    dsimp only
    split
    · intro ha; cases ha
    · dsimp only
      unfold Fs.deleteDir
      refine browserOp_cases s evs _ _ _ (fun p => Ans.bool p.1 = Ans.bool (.ok r) → p.2.storage d = none) ?_ ?_ ?_ ?_
      · intro _; exact upd_self _ _ _
      · intro ha; cases ha
      · intro ha; cases ha
      · intro ha; cases ha
  have hsep := (sep_init.run cs).step (.deleteDir d evs)
  revert hst hsep
  generalize ((Fs.init.run cs).step (.deleteDir d evs)).2 = s
  intro hst hsep
  show fileLog d f false (Fs.log (s.step .load).2 more) = log (fresh [] f) ((fileLog d f false (Fs.log (s.step .load).2 more)).map (·.1))
  refine fileLog_alone more (hsep.step .load) ⟨plain_noQ hf, rfl, ?_, fun dirs hd x hx => ?_, fun dirs hd hb => by cases hb⟩ hm
  · show own f (s.dirCache d) = _
    unfold Fs.dirCache
    rw [hst]; rfl
  · cases hd; cases hx

/-- The directory is not open. -/
def Shut (d : Name) (s : Fs) : Prop := ∀ dirs, s.dirs = some dirs → dirs d = none

theorem Shut.step {d : Name} {s : Fs} (h : Shut d s) {c : Cmd} (hc : ∀ evs, c ≠ .openDir d evs) : Shut d (s.step c).2 := by
  have stop : ∀ s : Fs, Shut d s.stop := fun s dirs hd => by cases hd
  have setFile : ∀ {s : Fs} (h : Shut d s) (e g : Name) (cs : Option (List Chunk)), Shut d (s.setFile e g cs) := by
    intro s h e g cs dirs hd
    match hs : s.dirs with
    | none => unfold Fs.setFile at hd; rw [hs] at hd; cases hd
    | some dirs0 =>
      rw [setFile_dirs hs] at hd
      cases hd
      by_cases hde : d = e
      · rw [hde, upd_self, ← hde, h dirs0 hs]; rfl
      · rw [upd_ne _ _ hde]; exact h dirs0 hs
  cases c with
  | load => intro dirs hd; cases hd; rfl
  | unmount => exact stop s
  | openDir e evs =>
    have hde : d ≠ e := fun hde => hc evs (by rw [hde])
    unfold Fs.step; dsimp only; split
    · exact h
    · unfold Fs.openDir; split
      · exact h
      · refine browserOp_cases s evs _ _ _ (fun p => Shut d p.2) ?_ h (stop _) (stop _)
        intro dirs hd
        unfold Fs.addDir at hd
        rw [make_dirs] at hd
        match hs : s.dirs with
        | none => rw [hs] at hd; cases hd
        | some dirs0 =>
          rw [hs] at hd
          cases hd
          dsimp only
          rw [upd_ne _ _ hde]; exact h dirs0 hs
  | deleteDir e evs =>
    unfold Fs.step; dsimp only; split
    · exact h
    · exact browserOp_cases s evs _ _ _ (fun p => Shut d p.2) h h (stop _) (stop _)
  | openFile e g evs =>
    unfold Fs.step; dsimp only; split
    · exact h
    · unfold Fs.openFile; split
      · exact h
      · split
        · exact h
        · exact browserOp_cases s evs _ _ _ (fun p => Shut d p.2) (setFile h _ _ _) h (stop _) (stop _)
  | fileExists e g evs =>
    unfold Fs.step; dsimp only; split
    · exact h
    · unfold Fs.fileExists; split
      · exact h
      · split
        · exact h
        · exact browserOp_cases s evs _ _ _ (fun p => Shut d p.2) h h (stop _) (stop _)
  | deleteFile e g evs =>
    unfold Fs.step; dsimp only; split
    · exact h
    · unfold Fs.deleteFile; split
      · exact h
      · exact browserOp_cases s evs _ _ _ (fun p => Shut d p.2) (setFile (s := { s with caches := _ }) h _ _ _) h (stop _) (stop _)
  | sync e g =>
    unfold Fs.step; dsimp only; split
    · exact h
    · unfold Fs.sync; split <;> exact h
  | call e g c =>
    unfold Fs.step; dsimp only; split
    · exact h
    · unfold Fs.call; split
      · exact h
      · split
        · exact h
        · split
          · exact h
          · dsimp only; split
            · exact setFile (s := { s with caches := _ }) h _ _ _
            · exact stop _

/-- **C66** (partial). If the directory was not opened since the page was loaded, then the files are gone as soon as `delete_dir` has returned `Ok`. -/
theorem C66_not_open_partial {d f : Name} (hf : Plain f) {cs mid : List Cmd} (ho : ∀ evs, .openDir d evs ∉ mid) {evs : List Ev} {r : Bool}
    (ha : ((Fs.init.run (cs ++ .load :: mid)).step (.deleteDir d evs)).1 = .bool (.ok r)) {more : List Cmd} (hm : ∀ c ∈ more, CmdOk c ∧ Keeps d f c) :
    fileLog d f false (((Fs.init.run (cs ++ .load :: mid)).step (.deleteDir d evs)).2.log more) =
      log (fresh [] f) ((fileLog d f false (((Fs.init.run (cs ++ .load :: mid)).step (.deleteDir d evs)).2.log more)).map (·.1)) := by
  have hshut : Shut d (Fs.init.run (cs ++ .load :: mid)) := by
    have hrun : ∀ (a b : List Cmd) (s : Fs), s.run (a ++ b) = (s.run a).run b := by
      intro a
      induction a with
      | nil => intro b s; rfl
      | cons c a ih => intro b s; exact ih b (s.step c).2
    have key : ∀ (mid : List Cmd) {s : Fs}, Shut d s → (∀ evs, .openDir d evs ∉ mid) → Shut d (s.run mid) := by
      intro mid
      induction mid with
      | nil => intro s h _; exact h
      | cons c mid ih => intro s h ho; exact ih (h.step fun evs he => ho evs (by simp [he])) fun evs hh => ho evs (by simp [hh])
    rw [hrun]
    exact key mid (s := ((Fs.init.run cs).step .load).2) (fun dirs hd => by cases hd; rfl) ho
  have hsep := (sep_init.run (cs ++ .load :: mid)).step (.deleteDir d evs)
  have hsh := hshut.step (c := .deleteDir d evs) (fun evs => by simp)
  have hst : ((Fs.init.run (cs ++ .load :: mid)).step (.deleteDir d evs)).2.storage d = none := by
    revert ha
    generalize Fs.init.run (cs ++ .load :: mid) = s
    unfold Fs.step
    dsimp only
    split
    · intro ha; cases ha
    · dsimp only
      unfold Fs.deleteDir
      refine browserOp_cases s evs _ _ _ (fun p => Ans.bool p.1 = Ans.bool (.ok r) → p.2.storage d = none) ?_ ?_ ?_ ?_
      · intro _; exact upd_self _ _ _
      · intro ha; cases ha
      · intro ha; cases ha
      · intro ha; cases ha
  refine fileLog_alone more hsep ⟨plain_noQ hf, rfl, ?_, fun dirs hd x hx => ?_, fun dirs hd hb => by cases hb⟩ hm
  · unfold Fs.dirCache
    rw [hst]; rfl
  · rw [hsh dirs hd] at hx; cases hx

example :
    (Fs.init.log [.load, .openDir dirD [], .openFile dirD fileA [], .call dirD fileA (.write 0 [1, 2, 3] []), .load, .deleteDir dirD [], .openDir dirD [], .fileExists dirD fileA []]).map (·.2) =
    [.unit (.ok ()), .unit (.ok ()), .unit (.ok ()), .file (.done (.ok ())), .unit (.ok ()), .bool (.ok true), .unit (.ok ()), .bool (.ok false)] := by decide +kernel

/-- **C66** is false: after `delete_dir` of an open directory has returned `Ok(true)` and the directory was opened again, the old bytes can still be read. New bytes can be
written with `Ok` and read, but when the page is loaded again they are gone. -/
theorem C66_false :
    (Fs.init.log [.load, .openDir dirD [], .openFile dirD fileA [], .call dirD fileA (.write 0 [1, 2, 3] []), .deleteDir dirD [], .openDir dirD [], .openFile dirD fileA [],
      .call dirD fileA (.read 0 3 []), .call dirD fileA (.write 3 [4] []), .call dirD fileA (.read 0 4 []), .load, .openDir dirD [], .fileExists dirD fileA []]).map (·.2) =
    [.unit (.ok ()), .unit (.ok ()), .unit (.ok ()), .file (.done (.ok ())), .bool (.ok true), .unit (.ok ()), .unit (.ok ()), .file (.bytes (.ok [1, 2, 3])), .file (.done (.ok ())),
      .file (.bytes (.ok [1, 2, 3, 4])), .unit (.ok ()), .unit (.ok ()), .bool (.ok false)] := by decide +kernel

/-! ### C67: what SQLite reads -/

theorem length_num {w : World} {len : Nat} {w' : World} (h : step w .length = (.num len, w')) : w' = w := by
  unfold step at h
  dsimp only at h
  split at h
  · cases h
  · cases h; rfl

/-- **C67** (partial: bytes can be lost or the read can fail, see `C67_false` and C44). For every history of calls on the file: if the read of `n` bytes from `start` returns `Ok`, it gives the bytes of
the file from `start` on, as many of the `n` as there are before the end of the file (its length at that time). -/
theorem C67_bytes_partial {cache : Cache} {name : Name} (hp : Plain name) (hu : Unused cache name) (cs : List Call) {start n : Nat} {evs : List Ev} {bs : Bytes}
    (hr : (vfsRead (run (fresh cache name) cs) start n evs).1 = .ok bs) :
    ∃ len v, (step (run (fresh cache name) cs) .length).1 = .num len ∧ Possible nothing (log (fresh cache name) cs) v ∧
      bs.length = min len (start + n) - start ∧ Shows v start bs := by
  obtain ⟨h1, h2⟩ := winv_fresh hp.ne hu
  obtain ⟨h3, h4, -⟩ := log_possible cs h1
  rw [h2] at h3
  revert hr h3 h4
  generalize run (fresh cache name) cs = w
  intro hr h3 h4
  unfold vfsRead at hr
  match hl : step w .length with
  | (.num len, w') =>
    have := length_num hl
    subst this
    rw [hl] at hr
    dsimp only at hr
    split at hr
    · have h5 := (step_spec h4 (.read start (min len (start + n)) evs)).1
      match hread : step w' (.read start (min len (start + n)) evs) with
      | (.bytes (.ok data), w'') =>
        rw [hread] at hr h5
        dsimp only at hr
        split at hr
        · rename_i hle
          have hr : data.take (min len (start + n) - start) = bs := by injection hr
          have h5 : w''.bytes = w'.bytes ∧ data.length = min len (start + n) - start ∧ Shows w'.bytes start data := h5
          rw [List.take_of_length_le (by omega)] at hr
          subst hr
          exact ⟨len, _, rfl, h3, h5.2.1, h5.2.2⟩
        · cases hr
      | (.bytes .err, _) => rw [hread] at hr; cases hr
      | (.bytes .panic, _) => rw [hread] at hr; cases hr
      | (.bytes .crash, _) => rw [hread] at hr; cases hr
      | (.opened, _) => rw [hread] at hr; cases hr
      | (.done _, _) => rw [hread] at hr; cases hr
      | (.num _, _) => rw [hread] at hr; cases hr
      | (.closed, _) => rw [hread] at hr; cases hr
    · cases hr
  | (.opened, _) => rw [hl] at hr; cases hr
  | (.done _, _) => rw [hl] at hr; cases hr
  | (.bytes _, _) => rw [hl] at hr; cases hr
  | (.closed, _) => rw [hl] at hr; cases hr

/-- **C67** (partial). The read never panics, if `start + n` does not overflow. -/
theorem C67_no_panic_partial {cache : Cache} {name : Name} (hp : Plain name) (hu : Unused cache name) (cs : List Call) {start n : Nat} (hn : start + n < 2 ^ 64)
    (evs : List Ev) : (vfsRead (run (fresh cache name) cs) start n evs).1 ≠ .panic := by
  obtain ⟨h1, h2⟩ := winv_fresh hp.ne hu
  obtain ⟨h3, h4, -⟩ := log_possible cs h1
  revert h4
  generalize run (fresh cache name) cs = w
  intro h4
  unfold vfsRead
  match hl : step w .length with
  | (.num len, w') =>
    have := length_num hl
    subst this
    dsimp only
    rw [if_pos hn]
    have h5 := (step_spec h4 (.read start (min len (start + n)) evs)).1
    match hread : step w' (.read start (min len (start + n)) evs) with
    | (.bytes (.ok data), w'') =>
      rw [hread] at h5
      have h5 : w''.bytes = w'.bytes ∧ data.length = min len (start + n) - start ∧ Shows w'.bytes start data := h5
      dsimp only
      rw [if_pos (by omega)]
      simp
    | (.bytes .err, _) => simp
    | (.bytes .panic, _) => simp
    | (.bytes .crash, _) => simp
    | (.opened, _) => simp
    | (.done _, _) => simp
    | (.num _, _) => simp
    | (.closed, _) => simp
  | (.opened, _) => simp
  | (.done _, _) => simp
  | (.bytes _, _) => simp
  | (.closed, _) => simp

/-- **C67** (partial). If the browser does not fail, the file is open and all writes end below 2 GiB, then the read returns `Ok`, also at or after the end of the file, where it gives no
bytes. -/
theorem C67_succeeds_partial {cache : Cache} {name : Name} (hp : Plain name) (hu : Unused cache name) {cs : List Call} {evs : List Ev} (he : Calm evs)
    (ho : (run (fresh cache name) cs).handle.isSome) (hr : reach 0 cs < 2 ^ 31) {start n : Nat} (hn : start + n < 2 ^ 64) :
    ∃ bs, (vfsRead (run (fresh cache name) cs) start n evs).1 = .ok bs ∧
      ∀ len, (step (run (fresh cache name) cs) .length).1 = .num len → len ≤ start → bs = [] := by
  obtain ⟨-, -, -, len, hl, hread⟩ := C44_succeeds_partial hp hu he ho
  obtain ⟨data, hd⟩ := hread start (min len (start + n)) hr (by omega)
  have hex : ∃ bs, (vfsRead (run (fresh cache name) cs) start n evs).1 = .ok bs := by
    have hnp := C67_no_panic_partial hp hu cs hn evs
    revert hnp
    unfold vfsRead
    rw [show step (run (fresh cache name) cs) .length = (.num len, (step (run (fresh cache name) cs) .length).2) by rw [← hl]]
    have := length_num (show step (run (fresh cache name) cs) .length = (.num len, (step (run (fresh cache name) cs) .length).2) by rw [← hl])
    rw [this]
    dsimp only
    rw [if_pos hn]
    rw [show step (run (fresh cache name) cs) (.read start (min len (start + n)) evs) =
      (.bytes (.ok data), (step (run (fresh cache name) cs) (.read start (min len (start + n)) evs)).2) by rw [← hd]]
    dsimp only
    split
    · intro _; exact ⟨_, rfl⟩
    · intro h; exact absurd rfl h
  obtain ⟨bs, hbs⟩ := hex
  refine ⟨bs, hbs, fun len' hl' hle => ?_⟩
  obtain ⟨len2, v, h1, -, h2, -⟩ := C67_bytes_partial hp hu cs hbs
  rw [h1] at hl'
  injection hl' with e
  subst e
  exact List.eq_nil_of_length_eq_zero (by omega)

example : (vfsRead (run (fresh [] exName) [.reopen, .write 0 [1, 2, 3] [], .write 3 [4, 5] []]) 2 8 []).1 = .ok [3, 4, 5] ∧
    (vfsRead (run (fresh [] exName) [.reopen, .write 0 [1, 2, 3] [], .write 3 [4, 5] []]) 7 8 []).1 = .ok [] := by decide +kernel

/-- **C67** is false: bytes that were written are not read. Eight bytes were written with `Ok` and read; after the first of them was written again, a read of eight bytes gives four. -/
theorem C67_false : (vfsRead (run (fresh [] exName) [.reopen, .write 0 [1, 2, 3, 4] [], .write 4 [5, 6, 7, 8] []]) 0 8 []).1 = .ok [1, 2, 3, 4, 5, 6, 7, 8] ∧
    (step (run (fresh [] exName) [.reopen, .write 0 [1, 2, 3, 4] [], .write 4 [5, 6, 7, 8] []]) (.write 0 [9] [])).1 = .done (.ok ()) ∧
    (vfsRead (run (fresh [] exName) [.reopen, .write 0 [1, 2, 3, 4] [], .write 4 [5, 6, 7, 8] [], .write 0 [9] []]) 0 8 []).1 = .ok [9, 2, 3, 4] := by decide +kernel

end Radix.Browser
