import Verif.Proofs.BrowserFs

/-
Helper lemmas: the whole file system behaves towards one file as that file alone.
-/

set_option linter.unusedVariables false

namespace Radix.Browser

open Radix.Spec

theorem upd_self {α β : Type} [DecidableEq α] (f : α → β) (a : α) (b : β) : upd f a b a = b := by simp [upd]

theorem upd_ne {α β : Type} [DecidableEq α] (f : α → β) {a x : α} (b : β) (h : x ≠ a) : upd f a b x = f x := by simp [upd, h]

/-- The cache that a new page finds for a directory. -/
def Fs.dirCache (s : Fs) (d : Name) : Cache := ((s.storage d).map s.caches).getD []

/-- Every cache belongs to one directory. -/
def Sep (s : Fs) : Prop := ∃ owner : Nat → Name,
  (∀ d a, s.storage d = some a → a < s.next ∧ owner a = d) ∧
  ∀ dirs, s.dirs = some dirs → ∀ d x, dirs d = some x → x.cache < s.next ∧ owner x.cache = d

/-- What the file system holds of the file `f` in `d` is what `w` holds. `b`: the file is open, if the thread runs. -/
structure Sim (d f : Name) (b : Bool) (s : Fs) (w : World) : Prop where
  noQ : NoQ f
  name : w.name = f
  entries : own f (s.dirCache d) = own f w.cache
  dir : ∀ dirs, s.dirs = some dirs → ∀ x, dirs d = some x → s.storage d = some x.cache ∧ x.files f = if b then w.handle else none
  isOpen : ∀ dirs, s.dirs = some dirs → b = true → (∃ x, dirs d = some x) ∧ ∃ cs, w.handle = some cs

/-- The step of the file alone that belongs to a call of the file system. -/
def Trans (d f : Name) (b : Bool) (w : World) : Cmd → Ans → Bool → World → Prop
  | .load, _, b', w' => b' = false ∧ w' = w
  | .openFile d' f' _, a, b', w' =>
    (d' = d ∧ f' = f ∧ a = .unit (.ok ()) → b' = true ∧ w' = (if b then w else (step w .reopen).2)) ∧
      (¬ (d' = d ∧ f' = f ∧ a = .unit (.ok ())) → b' = b ∧ w' = w)
  | .deleteFile d' f' _, a, b', w' =>
    (d' = d ∧ f' = f →
      (∃ r, a = .bool (.ok r)) ∧ b' = false ∧ w' = fresh [] f ∨ (∀ r, a ≠ .bool (.ok r)) ∧ b' = b ∧ (w' = w ∨ w' = fresh [] f)) ∧
    (¬ (d' = d ∧ f' = f) → b' = b ∧ w' = w)
  | .call d' f' c, a, b', w' =>
    (d' = d ∧ f' = f →
      a = .closed ∧ b' = b ∧ w' = w ∨ b = false ∧ a = .file (notOpen c) ∧ b' = b ∧ w' = w ∨
      b = true ∧ a = .file (step w c).1 ∧ b' = b ∧ w' = (step w c).2) ∧
    (¬ (d' = d ∧ f' = f) → b' = b ∧ w' = w)
  | _, _, b', w' => b' = b ∧ w' = w

variable {d f : Name} {b : Bool} {s : Fs} {w : World}

theorem Sim.stop (h : Sim d f b s w) : Sim d f b s.stop w :=
  ⟨h.noQ, h.name, h.entries, fun dirs e => (by cases e), fun dirs e => by cases e⟩

theorem Sep.stop (h : Sep s) : Sep s.stop := by
  obtain ⟨o, h1, h2⟩ := h
  exact ⟨o, h1, fun dirs e => by cases e⟩

/-- The four outcomes of an operation of the browser. -/
theorem browserOp_cases {α : Type} (s : Fs) (evs : List Ev) (f : Fs → Fs) (r : α) (g : Fs → Fs) (P : Out α × Fs → Prop) (h1 : P (.ok r, g (f s)))
    (h2 : P (.err, s)) (h3 : P (.crash, (f s).stop)) (h4 : P (.crash, s.stop)) : P (s.browserOp evs f r g) := by
  unfold Fs.browserOp
  split
  · exact h1
  · exact h2
  · exact h3
  · exact h4

/-! ### Caches of different directories -/

theorem Sep.make (h : Sep s) (e : Name) : Sep (s.make e) := by
  obtain ⟨o, h1, h2⟩ := h
  unfold Fs.make
  split
  · exact ⟨o, h1, h2⟩
  · refine ⟨upd o s.next e, fun d a ha => ?_, fun dirs hd d x hx => ?_⟩
    · have ha : upd s.storage e (some s.next) d = some a := ha
      show a < s.next + 1 ∧ _
      by_cases hde : d = e
      · rw [hde, upd_self] at ha
        cases ha
        exact ⟨Nat.lt_succ_self _, by rw [upd_self, hde]⟩
      · rw [upd_ne _ _ hde] at ha
        obtain ⟨l, l'⟩ := h1 d a ha
        exact ⟨by omega, by rw [upd_ne _ _ (by omega)]; exact l'⟩
    · obtain ⟨l, l'⟩ := h2 dirs hd d x hx
      show x.cache < s.next + 1 ∧ _
      exact ⟨by omega, by rw [upd_ne _ _ (by omega)]; exact l'⟩

theorem make_storage (s : Fs) (e : Name) : ∃ a, (s.make e).storage e = some a := by
  unfold Fs.make
  match h : s.storage e with
  | some a => exact ⟨a, h⟩
  | none => exact ⟨s.next, upd_self _ _ _⟩

theorem make_dirs (s : Fs) (e : Name) : (s.make e).dirs = s.dirs := by unfold Fs.make; split <;> rfl

theorem Sep.addDir (h : Sep s) (e : Name) : Sep (s.addDir e) := by
  obtain ⟨o, h1, h2⟩ := h
  refine ⟨o, h1, fun dirs hd d x hx => ?_⟩
  match hs : s.dirs with
  | none => unfold Fs.addDir at hd; rw [hs] at hd; cases hd
  | some dirs0 =>
    unfold Fs.addDir at hd; rw [hs] at hd
    cases hd
    dsimp only at hx
    by_cases hde : d = e
    · rw [hde, upd_self] at hx
      match hst : s.storage e with
      | none => rw [hst] at hx; cases hx
      | some a => rw [hst] at hx; cases hx; exact hde ▸ h1 e a hst
    · rw [upd_ne _ _ hde] at hx
      exact h2 dirs0 hs d x hx

theorem setFile_dirs {dirs : Name → Option Dir} (hd : s.dirs = some dirs) (e g : Name) (cs : Option (List Chunk)) :
    (s.setFile e g cs).dirs = some (upd dirs e ((dirs e).map fun x => { x with files := upd x.files g cs })) := by
  unfold Fs.setFile; rw [hd]; rfl

theorem Sep.setFile (h : Sep s) (e g : Name) (cs : Option (List Chunk)) : Sep (s.setFile e g cs) := by
  obtain ⟨o, h1, h2⟩ := h
  refine ⟨o, h1, fun dirs hd d x hx => ?_⟩
  match hs : s.dirs with
  | none => unfold Fs.setFile at hd; rw [hs] at hd; cases hd
  | some dirs0 =>
    rw [setFile_dirs hs] at hd
    cases hd
    by_cases hde : d = e
    · rw [hde, upd_self] at hx
      match hst : dirs0 e with
      | none => rw [hst] at hx; cases hx
      | some y => rw [hst] at hx; cases hx; exact hde ▸ h2 dirs0 hs e y hst
    · rw [upd_ne _ _ hde] at hx
      exact h2 dirs0 hs d x hx

theorem Sep.caches (h : Sep s) (cs : Nat → Cache) : Sep { s with caches := cs } := h

theorem Sep.step (h : Sep s) (c : Cmd) : Sep (s.step c).2 := by
  have op : ∀ {α : Type} (evs : List Ev) (f g : Fs → Fs) (r : α), (∀ s, Sep s → Sep (f s)) → (∀ s, Sep s → Sep (g s)) → Sep (s.browserOp evs f r g).2 :=
    fun evs f g r h1 h2 => browserOp_cases s evs f r g (fun p => Sep p.2) (h2 _ (h1 _ h)) h (h1 _ h).stop h.stop
  cases c with
  | load =>
    obtain ⟨o, h1, h2⟩ := h
    exact ⟨o, h1, fun dirs hd d x hx => by cases hd; cases hx⟩
  | unmount => exact h.stop
  | openDir e evs =>
    unfold Fs.step; dsimp only; split
    · exact h
    · unfold Fs.openDir; split
      · exact h
      · exact op evs _ _ _ (fun s h => h.make e) (fun s h => h.addDir e)
  | deleteDir e evs =>
    unfold Fs.step; dsimp only; split
    · exact h
    · refine op evs _ _ _ (fun s h => ?_) (fun s h => h)
      obtain ⟨o, h1, h2⟩ := h
      refine ⟨o, fun d a ha => ?_, h2⟩
      have ha : upd s.storage e none d = some a := ha
      by_cases hde : d = e
      · rw [hde, upd_self] at ha; cases ha
      · rw [upd_ne _ _ hde] at ha; exact h1 d a ha
  | openFile e g evs =>
    unfold Fs.step; dsimp only; split
    · exact h
    · unfold Fs.openFile; split
      · exact h
      · split
        · exact h
        · exact op evs _ _ _ (fun s h => h) (fun s h => h.setFile _ _ _)
  | fileExists e g evs =>
    unfold Fs.step; dsimp only; split
    · exact h
    · unfold Fs.fileExists; split
      · exact h
      · split
        · exact h
        · exact op evs _ _ _ (fun s h => h) (fun s h => h)
  | deleteFile e g evs =>
    unfold Fs.step; dsimp only; split
    · exact h
    · unfold Fs.deleteFile; split
      · exact h
      · exact op evs _ _ _ (fun s h => h.caches _) (fun s h => h.setFile _ _ _)
  | sync e g =>
    unfold Fs.step; dsimp only; split
    · exact h
    · unfold Fs.sync; split <;> exact h
  | call e g c =>
    unfold Fs.step; dsimp only; split
    · exact h
    · unfold Fs.call; split
      · exact h
      · split
        · exact h
        · split
          · exact h
          · dsimp only; split
            · exact (h.caches _).setFile _ _ _
            · exact (h.caches _).stop

theorem Sep.run : ∀ {s : Fs} (h : Sep s) (cs : List Cmd), Sep (s.run cs)
  | _, h, [] => h
  | _, h, c :: cs => Sep.run (h.step c) cs

theorem sep_init : Sep Fs.init := ⟨fun _ => [], fun d a h => (by cases h), fun dirs h => by cases h⟩

/-- The caches of two directories are different. -/
theorem Sep.ne (h : Sep s) {dirs : Name → Option Dir} (hd : s.dirs = some dirs) {e : Name} {x : Dir} (hx : dirs e = some x) (hne : e ≠ d) {a : Nat}
    (ha : s.storage d = some a) : a ≠ x.cache := by
  obtain ⟨o, h1, h2⟩ := h
  have e1 := (h1 d a ha).2
  have e2 := (h2 dirs hd e x hx).2
  intro he
  subst he
  exact hne (e2 ▸ e1 ▸ rfl)

/-! ### The simulation -/

theorem dirCache_of {a : Nat} (h : s.storage d = some a) : s.dirCache d = s.caches a := by unfold Fs.dirCache; rw [h]; rfl

theorem dirCache_caches {cs : Nat → Cache} (h : ∀ a, s.storage d = some a → cs a = s.caches a) : Fs.dirCache { s with caches := cs } d = s.dirCache d := by
  unfold Fs.dirCache
  match hs : s.storage d with
  | none => simp [hs]
  | some a => simp [hs, h a hs]

theorem Sim.make (hsep : Sep s) (h : Sim d f b s w) (e : Name) (hdirs : ∀ dirs, s.dirs = some dirs → dirs e = none) : Sim d f b (s.make e) w := by
  unfold Fs.make
  split
  · exact h
  · rename_i hn
    refine ⟨h.noQ, h.name, ?_, fun dirs hd x hx => ?_, h.isOpen⟩
    · by_cases hde : d = e
      · have e1 : Fs.dirCache { s with caches := upd s.caches s.next [], next := s.next + 1, storage := upd s.storage e (some s.next) } d = [] := by
          unfold Fs.dirCache; dsimp only; rw [hde, upd_self]; show upd s.caches s.next [] s.next = []; rw [upd_self]
        have e2 : s.dirCache d = [] := by unfold Fs.dirCache; rw [hde, hn]; rfl
        rw [e1, ← h.entries, e2]
      · have e1 : Fs.dirCache { s with caches := upd s.caches s.next [], next := s.next + 1, storage := upd s.storage e (some s.next) } d = s.dirCache d := by
          unfold Fs.dirCache; dsimp only; rw [upd_ne _ _ hde]
          match hs : s.storage d with
          | none => rfl
          | some a =>
            obtain ⟨o, h1, h2⟩ := hsep
            have := (h1 d a hs).1
            show upd s.caches s.next [] a = s.caches a
            rw [upd_ne _ _ (by omega)]
        rw [e1, h.entries]
    · by_cases hde : d = e
      · rw [hde, hdirs dirs hd] at hx; cases hx
      · obtain ⟨h1, h2⟩ := h.dir dirs hd x hx
        exact ⟨by show upd s.storage e _ d = _; rw [upd_ne _ _ hde]; exact h1, h2⟩

theorem Sim.addDir (h : Sim d f b s w) (e : Name) (hdirs : ∀ dirs, s.dirs = some dirs → dirs e = none) : Sim d f b (s.addDir e) w := by
  match hs : s.dirs with
  | none =>
    have : s.addDir e = s := by unfold Fs.addDir; cases s; dsimp only at hs ⊢; rw [hs]; rfl
    rw [this]; exact h
  | some dirs0 =>
    have hd' : (s.addDir e).dirs = some (upd dirs0 e ((s.storage e).map fun a => ⟨a, fun _ => none⟩)) := by unfold Fs.addDir; rw [hs]; rfl
    refine ⟨h.noQ, h.name, h.entries, fun dirs hd x hx => ?_, fun dirs hd hb => ?_⟩
    · rw [hd'] at hd
      cases hd
      by_cases hde : d = e
      · rw [hde, upd_self] at hx
        match hst : s.storage e with
        | none => rw [hst] at hx; cases hx
        | some a =>
          rw [hst] at hx
          cases hx
          refine ⟨by rw [hde]; exact hst, ?_⟩
          cases b with
          | false => rfl
          | true =>
            obtain ⟨⟨x, hx⟩, _⟩ := h.isOpen dirs0 hs rfl
            rw [hde, hdirs dirs0 hs] at hx
            cases hx
      · rw [upd_ne _ _ hde] at hx
        exact h.dir dirs0 hs x hx
    · rw [hd'] at hd
      cases hd
      obtain ⟨⟨x, hx⟩, hw⟩ := h.isOpen dirs0 hs hb
      have hde : d ≠ e := by intro hde; rw [hde, hdirs dirs0 hs] at hx; cases hx
      exact ⟨⟨x, by rw [upd_ne _ _ hde]; exact hx⟩, hw⟩

/-- Opening, closing or changing another file. -/
theorem Sim.setFile_other (h : Sim d f b s w) {e g : Name} (hne : ¬ (e = d ∧ g = f)) (cs : Option (List Chunk)) : Sim d f b (s.setFile e g cs) w := by
  match hs : s.dirs with
  | none =>
    have : s.setFile e g cs = s := by unfold Fs.setFile; cases s; dsimp only at hs ⊢; rw [hs]; rfl
    rw [this]; exact h
  | some dirs0 =>
    refine ⟨h.noQ, h.name, h.entries, fun dirs hd x hx => ?_, fun dirs hd hb => ?_⟩
    · rw [setFile_dirs hs] at hd
      cases hd
      by_cases hde : d = e
      · subst hde
        rw [upd_self] at hx
        match hst : dirs0 d with
        | none => rw [hst] at hx; cases hx
        | some y =>
          rw [hst] at hx
          cases hx
          obtain ⟨h1, h2⟩ := h.dir dirs0 hs y hst
          exact ⟨h1, by show upd y.files g cs f = _; rw [upd_ne _ _ fun hfg => hne ⟨rfl, hfg.symm⟩]; exact h2⟩
      · rw [upd_ne _ _ hde] at hx
        exact h.dir dirs0 hs x hx
    · rw [setFile_dirs hs] at hd
      cases hd
      obtain ⟨⟨x, hx⟩, hw⟩ := h.isOpen dirs0 hs hb
      refine ⟨?_, hw⟩
      by_cases hde : d = e
      · subst hde; exact ⟨_, by rw [upd_self, hx]; rfl⟩
      · exact ⟨x, by rw [upd_ne _ _ hde]; exact hx⟩

/-- The thread has the file open with the chunks of `w'`, or has closed it. -/
theorem Sim.setFile_self {dirs : Name → Option Dir} (hs : s.dirs = some dirs) {x : Dir} (hx : dirs d = some x) (hst : s.storage d = some x.cache)
    (hq : NoQ f) {w' : World} (hn : w'.name = f) (ho : own f (s.caches x.cache) = own f w'.cache) {b' : Bool} (hw : b' = true → ∃ cs, w'.handle = some cs) :
    Sim d f b' (s.setFile d f (if b' then w'.handle else none)) w' := by
  refine ⟨hq, hn, ?_, fun dirs' hd y hy => ?_, fun dirs' hd hb => ?_⟩
  · have : (s.setFile d f (if b' then w'.handle else none)).dirCache d = s.caches x.cache := dirCache_of (s := s.setFile d f _) hst
    rw [this]; exact ho
  · rw [setFile_dirs hs] at hd
    cases hd
    rw [upd_self, hx] at hy
    cases hy
    exact ⟨hst, upd_self _ _ _⟩
  · rw [setFile_dirs hs] at hd
    cases hd
    exact ⟨⟨_, by rw [upd_self, hx]; rfl⟩, hw hb⟩

/-- The cache of an open directory is changed, but not the entries of the file. -/
theorem Sim.caches (hsep : Sep s) (h : Sim d f b s w) {dirs : Name → Option Dir} (hd : s.dirs = some dirs) {e : Name} {x : Dir} (hx : dirs e = some x)
    {c : Cache} (hc : e = d → own f c = own f (s.caches x.cache)) : Sim d f b { s with caches := upd s.caches x.cache c } w := by
  refine ⟨h.noQ, h.name, ?_, h.dir, h.isOpen⟩
  rw [← h.entries]
  by_cases hde : e = d
  · have hst := (h.dir dirs hd x (hde ▸ hx)).1
    rw [dirCache_of (s := { s with caches := upd s.caches x.cache c }) hst, dirCache_of hst]
    show own f (upd s.caches x.cache c x.cache) = _
    rw [upd_self]; exact hc hde
  · rw [dirCache_caches fun a ha => upd_ne _ _ (hsep.ne hd hx hde ha)]

theorem sim_step (hsep : Sep s) (h : Sim d f b s w) {c : Cmd} (hok : CmdOk c) (hk : KeepsDir d c) :
    ∃ b' w', Sim d f b' (s.step c).2 w' ∧ Trans d f b w c (s.step c).1 b' w' := by
  cases c with
  | load => exact ⟨false, w, ⟨h.noQ, h.name, h.entries, fun dirs hd x hx => (by cases hd; cases hx), fun dirs hd hb => by cases hb⟩, rfl, rfl⟩
  | unmount => exact ⟨b, w, h.stop, rfl, rfl⟩
  | openDir e evs =>
    unfold Fs.step; dsimp only; split
    · exact ⟨b, w, h, rfl, rfl⟩
    · rename_i dirs hd
      unfold Fs.openDir; split
      · exact ⟨b, w, h, rfl, rfl⟩
      · rename_i hn
        have hn' : ∀ dirs, s.dirs = some dirs → dirs e = none := fun dirs' hd' => by rw [hd] at hd'; cases hd'; exact hn
        have hm := h.make hsep e hn'
        refine ⟨b, w, browserOp_cases s evs _ () _ (fun p => Sim d f b p.2 w) ?_ h hm.stop h.stop, rfl, rfl⟩
        exact hm.addDir e fun dirs' hd' => hn' dirs' (by rw [← hd', make_dirs])
  | deleteDir e evs =>
    unfold Fs.step; dsimp only; split
    · exact ⟨b, w, h, rfl, rfl⟩
    · have hde : d ≠ e := fun hde => hk evs (by rw [hde])
      have h1 : Sim d f b { s with storage := upd s.storage e none } w := by
        refine ⟨h.noQ, h.name, ?_, fun dirs hd x hx => ?_, h.isOpen⟩
        · rw [← h.entries]; unfold Fs.dirCache; dsimp only; rw [upd_ne _ _ hde]
        · obtain ⟨h1, h2⟩ := h.dir dirs hd x hx
          exact ⟨by show upd s.storage e none d = _; rw [upd_ne _ _ hde]; exact h1, h2⟩
      exact ⟨b, w, browserOp_cases s evs _ _ _ (fun p => Sim d f b p.2 w) h1 h h1.stop h.stop, rfl, rfl⟩
  | openFile e g evs =>
    unfold Fs.step; dsimp only; split
    · refine ⟨b, w, h, ?_⟩
      exact ⟨fun hh => (by simp at hh), fun _ => ⟨rfl, rfl⟩⟩
    · rename_i dirs hd
      unfold Fs.openFile; split
      · refine ⟨b, w, h, ?_⟩
        exact ⟨fun hh => (by simp at hh), fun _ => ⟨rfl, rfl⟩⟩
      · rename_i x hx
        split
        · rename_i cs hcs
          by_cases hs : e = d ∧ g = f
          · obtain ⟨rfl, rfl⟩ := hs
            have hb : b = true := by
              have := (h.dir dirs hd x hx).2
              rw [hcs] at this
              cases b with
              | true => rfl
              | false => cases this
            refine ⟨b, w, h, ?_⟩
            rw [hb]
            exact ⟨fun _ => ⟨rfl, rfl⟩, fun hh => (hh ⟨rfl, rfl, rfl⟩).elim⟩
          · refine ⟨b, w, h, ?_⟩
            exact ⟨fun hh => (hs ⟨hh.1, hh.2.1⟩).elim, fun _ => ⟨rfl, rfl⟩⟩
        · rename_i hcs
          by_cases hs : e = d ∧ g = f
          · obtain ⟨rfl, rfl⟩ := hs
            obtain ⟨hst, hfl⟩ := h.dir dirs hd x hx
            have hb : b = false := by
              cases b with
              | false => rfl
              | true =>
                obtain ⟨_, cs, hcs'⟩ := h.isOpen dirs hd rfl
                rw [hcs, hcs'] at hfl
                cases hfl
            have hch : s.chunks x g = chunksOf w.cache g := by
              unfold Fs.chunks
              rw [← chunksOf_own, ← chunksOf_own _ w.cache, ← h.entries, dirCache_of hst]
            refine browserOp_cases s evs id () (fun s => s.setFile e g (some (s.chunks x g)))
              (fun p => ∃ b' w', Sim e g b' p.2 w' ∧ Trans e g b w (.openFile e g evs) (.unit p.1) b' w') ?_ ?_ ?_ ?_
            · refine ⟨true, (step w .reopen).2, ?_, ?_⟩
              · have := Sim.setFile_self (s := s) (b' := true) (w' := (step w .reopen).2) hd hx hst h.noQ h.name (by
                  rw [← dirCache_of hst]; exact h.entries) (fun _ => ⟨_, rfl⟩)
                have e1 : (if true = true then (step w .reopen).2.handle else none) = some (s.chunks x g) := by
                  rw [if_pos rfl, hch]
                  show some (chunksOf w.cache w.name) = _
                  rw [h.name]
                rw [e1] at this
                exact this
              · rw [hb]
                exact ⟨fun _ => ⟨rfl, rfl⟩, fun hh => (hh ⟨rfl, rfl, rfl⟩).elim⟩
            · refine ⟨b, w, h, ?_⟩
              exact ⟨fun hh => (by simp at hh), fun _ => ⟨rfl, rfl⟩⟩
            · refine ⟨b, w, h.stop, ?_⟩
              exact ⟨fun hh => (by simp at hh), fun _ => ⟨rfl, rfl⟩⟩
            · refine ⟨b, w, h.stop, ?_⟩
              exact ⟨fun hh => (by simp at hh), fun _ => ⟨rfl, rfl⟩⟩
          · refine ⟨b, w, browserOp_cases s evs _ _ _ (fun p => Sim d f b p.2 w) (h.setFile_other hs _) h h.stop h.stop, ?_⟩
            exact ⟨fun hh => (hs ⟨hh.1, hh.2.1⟩).elim, fun _ => ⟨rfl, rfl⟩⟩
  | fileExists e g evs =>
    unfold Fs.step; dsimp only; split
    · exact ⟨b, w, h, rfl, rfl⟩
    · unfold Fs.fileExists; split
      · exact ⟨b, w, h, rfl, rfl⟩
      · split
        · exact ⟨b, w, h, rfl, rfl⟩
        · exact ⟨b, w, browserOp_cases s evs _ _ _ (fun p => Sim d f b p.2 w) h h h.stop h.stop, rfl, rfl⟩
  | sync e g =>
    unfold Fs.step; dsimp only; split
    · exact ⟨b, w, h, rfl, rfl⟩
    · unfold Fs.sync; split <;> exact ⟨b, w, h, rfl, rfl⟩
  | deleteFile e g evs =>
    have hg : NoQ g := plain_noQ hok
    unfold Fs.step; dsimp only; split
    · refine ⟨b, w, h, ?_⟩
      exact ⟨fun _ => .inr ⟨fun r hr => (by cases hr), rfl, .inl rfl⟩, fun _ => ⟨rfl, rfl⟩⟩
    · rename_i dirs hd
      unfold Fs.deleteFile; split
      · refine ⟨b, w, h, ?_⟩
        exact ⟨fun _ => .inr ⟨fun r hr => (by cases hr), rfl, .inl rfl⟩, fun _ => ⟨rfl, rfl⟩⟩
      · rename_i x hx
        by_cases hs : e = d ∧ g = f
        · obtain ⟨rfl, rfl⟩ := hs
          obtain ⟨hst, hfl⟩ := h.dir dirs hd x hx
          have hcache : (upd s.caches x.cache ((s.caches x.cache).delPath g)) x.cache = (s.caches x.cache).delPath g := upd_self _ _ _
          refine browserOp_cases s evs _ _ _
            (fun p => ∃ b' w', Sim e g b' p.2 w' ∧ Trans e g b w (.deleteFile e g evs) (.bool p.1) b' w') ?_ ?_ ?_ ?_
          · refine ⟨false, fresh [] g, ?_, ?_⟩
            · refine Sim.setFile_self (s := { s with caches := upd s.caches x.cache ((s.caches x.cache).delPath g) }) (b' := false)
                (w' := fresh [] g) hd hx hst h.noQ rfl ?_ (by simp)
              dsimp only
              rw [hcache, own_delPath_self hg]; rfl
            · refine ⟨fun _ => ?_, fun hh => (hh ⟨rfl, rfl⟩).elim⟩
              exact .inl ⟨⟨_, rfl⟩, rfl, rfl⟩
          · refine ⟨b, w, h, ?_⟩
            refine ⟨fun _ => ?_, fun hh => (hh ⟨rfl, rfl⟩).elim⟩
            exact .inr ⟨fun r hr => (by cases hr), rfl, .inl rfl⟩
          · refine ⟨b, fresh [] g, ?_, ?_⟩
            · refine ⟨h.noQ, rfl, ?_, fun dirs e => (by cases e), fun dirs e => by cases e⟩
              refine Eq.trans (congrArg (own g) (dirCache_of (s := Fs.stop _) hst)) ?_
              show own g (upd s.caches x.cache _ x.cache) = _
              rw [hcache, own_delPath_self hg]; rfl
            · refine ⟨fun _ => ?_, fun hh => (hh ⟨rfl, rfl⟩).elim⟩
              exact .inr ⟨fun r hr => (by cases hr), rfl, .inr rfl⟩
          · refine ⟨b, w, h.stop, ?_⟩
            refine ⟨fun _ => ?_, fun hh => (hh ⟨rfl, rfl⟩).elim⟩
            exact .inr ⟨fun r hr => (by cases hr), rfl, .inl rfl⟩
        · have h1 : Sim d f b { s with caches := upd s.caches x.cache ((s.caches x.cache).delPath g) } w :=
            h.caches hsep hd hx fun he => own_delPath_other hg (fun hgf => hs ⟨he, hgf⟩) _
          refine ⟨b, w, browserOp_cases s evs _ _ _ (fun p => Sim d f b p.2 w) (h1.setFile_other hs _) h h1.stop h.stop, ?_⟩
          exact ⟨fun hh => (hs hh).elim, fun _ => ⟨rfl, rfl⟩⟩
  | call e g c =>
    have hg : NoQ g := plain_noQ hok.1
    unfold Fs.step; dsimp only; split
    · refine ⟨b, w, h, ?_⟩
      exact ⟨fun _ => .inl ⟨rfl, rfl, rfl⟩, fun _ => ⟨rfl, rfl⟩⟩
    · rename_i dirs hd
      unfold Fs.call; split
      · rename_i hn
        refine ⟨b, w, h, ?_⟩
        refine ⟨fun hs => ?_, fun _ => ⟨rfl, rfl⟩⟩
        · skip
          obtain ⟨rfl, rfl⟩ := hs
          have hb : b = false := by
            cases b with
            | false => rfl
            | true =>
              obtain ⟨⟨x, hx⟩, _⟩ := h.isOpen dirs hd rfl
              rw [hn] at hx
              cases hx
          exact .inr (.inl ⟨hb, rfl, rfl, rfl⟩)
      · rename_i x hx
        split
        · rename_i hn
          refine ⟨b, w, h, ?_⟩
          refine ⟨fun hs => ?_, fun _ => ⟨rfl, rfl⟩⟩
          · skip
            obtain ⟨rfl, rfl⟩ := hs
            have hb : b = false := by
              cases b with
              | false => rfl
              | true =>
                obtain ⟨_, cs, hcs'⟩ := h.isOpen dirs hd rfl
                have := (h.dir dirs hd x hx).2
                rw [hn, hcs'] at this
                cases this
            exact .inr (.inl ⟨hb, rfl, rfl, rfl⟩)
        · rename_i cs hcs
          rw [if_neg hok.2]
          dsimp only
          by_cases hs : e = d ∧ g = f
          · obtain ⟨rfl, rfl⟩ := hs
            obtain ⟨hst, hfl⟩ := h.dir dirs hd x hx
            have hb : b = true := by
              rw [hcs] at hfl
              cases b with
              | true => rfl
              | false => cases hfl
            rw [hcs, hb, if_pos rfl] at hfl
            have hsw : SameW w ⟨s.caches x.cache, g, some cs⟩ :=
              ⟨by rw [h.name, ← h.entries, dirCache_of hst], h.name.symm, hfl, h.name ▸ h.noQ⟩
            obtain ⟨e1, e2⟩ := step_same hsw c
            refine ⟨b, (step w c).2, ?_, ?_⟩
            · have hn : (step w c).2.name = g := by rw [step_name w (h.name ▸ h.noQ) c]; exact h.name
              have ho : own g ((upd s.caches x.cache (step ⟨s.caches x.cache, g, some cs⟩ c).2.cache) x.cache) = own g (step w c).2.cache := by
                rw [upd_self]
                have := e2.own
                rw [hn] at this
                exact this.symm
              have hh : (step ⟨s.caches x.cache, g, some cs⟩ c).2.handle = (step w c).2.handle := e2.handle
              split
              · rename_i cs' hcs'
                rw [hh] at hcs'
                have := Sim.setFile_self (s := { s with caches := upd s.caches x.cache (step ⟨s.caches x.cache, g, some cs⟩ c).2.cache }) (b' := true)
                  (w' := (step w c).2) hd hx hst h.noQ hn ho (fun _ => ⟨cs', hcs'⟩)
                rw [if_pos rfl, hcs'] at this
                rw [hb]
                exact this
              · refine ⟨h.noQ, hn, ?_, fun dirs e => (by cases e), fun dirs e => by cases e⟩
                refine Eq.trans (congrArg (own g) (dirCache_of (s := Fs.stop _) hst)) ?_
                exact ho
            · refine ⟨fun _ => ?_, fun hh => (hh ⟨rfl, rfl⟩).elim⟩
              refine .inr (.inr ⟨hb, ?_, rfl, rfl⟩)
              split <;> rw [e1]
          · have h1 : Sim d f b { s with caches := upd s.caches x.cache (step ⟨s.caches x.cache, g, some cs⟩ c).2.cache } w :=
              h.caches hsep hd hx fun he => by
                rw [step_leaves (f := f) (w := ⟨s.caches x.cache, g, some cs⟩) hg (fun hgf => hs ⟨he, hgf⟩) c]
            refine ⟨b, w, ?_, ?_⟩
            · split
              · exact h1.setFile_other hs _
              · exact h1.stop
            · exact ⟨fun hh => (hs hh).elim, fun _ => ⟨rfl, rfl⟩⟩

/-! ### Histories -/

theorem fileLog_step {c : Cmd} {a : Ans} {b' : Bool} {w' : World} (ht : Trans d f b w c a b' w') (hk : Keeps d f c) (es : List (Cmd × Ans)) :
    ∃ pre, fileLog d f b ((c, a) :: es) = pre ++ fileLog d f b' es ∧ log w (pre.map (·.1)) = pre ∧ run w (pre.map (·.1)) = w' := by
  have same : ∀ {b' : Bool} {w' : World}, b' = b ∧ w' = w → fileLog d f b ((c, a) :: es) = fileLog d f b es →
      ∃ pre, fileLog d f b ((c, a) :: es) = pre ++ fileLog d f b' es ∧ log w (pre.map (·.1)) = pre ∧ run w (pre.map (·.1)) = w' := by
    intro b' w' h e
    exact ⟨[], by rw [e, h.1]; rfl, rfl, h.2.symm⟩
  cases c with
  | load =>
    obtain ⟨h1, h2⟩ := ht
    exact ⟨[], by rw [h1]; simp [fileLog], rfl, h2.symm⟩
  | unmount => exact same ht (by simp [fileLog])
  | openDir e evs => exact same ht (by simp [fileLog])
  | deleteDir e evs => exact same ht (by simp [fileLog])
  | fileExists e g evs => exact same ht (by simp [fileLog])
  | sync e g => exact same ht (by simp [fileLog])
  | deleteFile e g evs => exact same (ht.2 fun hh => hk.2 evs (by rw [hh.1, hh.2])) (by simp [fileLog])
  | openFile e g evs =>
    obtain ⟨t1, t2⟩ := ht
    by_cases hs : e = d ∧ g = f ∧ a = .unit (.ok ())
    · obtain ⟨rfl, rfl, rfl⟩ := hs
      obtain ⟨rfl, rfl⟩ := t1 ⟨rfl, rfl, rfl⟩
      cases b with
      | true => exact ⟨[], by simp [fileLog], rfl, rfl⟩
      | false => exact ⟨[(.reopen, .opened)], by simp [fileLog], rfl, rfl⟩
    · refine same (t2 hs) ?_
      rcases a with _ | r | r | r
      · rfl
      · cases r with
        | ok u => show (if e = d ∧ g = f then _ else _) = _; rw [if_neg fun hh => hs ⟨hh.1, hh.2, rfl⟩]
        | _ => rfl
      · rfl
      · rfl
  | call e g c =>
    obtain ⟨t1, t2⟩ := ht
    by_cases hs : e = d ∧ g = f
    · rcases t1 hs with ⟨rfl, h1, h2⟩ | ⟨hb, rfl, h1, h2⟩ | ⟨hb, rfl, h1, h2⟩
      · exact same ⟨h1, h2⟩ rfl
      · refine same ⟨h1, h2⟩ ?_
        show (if e = d ∧ g = f ∧ b = true then _ else _) = _
        rw [if_neg fun hh => by rw [hb] at hh; cases hh.2.2]
      · refine ⟨[(c, (step w c).1)], ?_, rfl, h2.symm⟩
        show (if e = d ∧ g = f ∧ b = true then _ else _) = _
        rw [if_pos ⟨hs.1, hs.2, hb⟩, h1]; rfl
    · refine same (t2 hs) ?_
      rcases a with _ | r | r | r
      · rfl
      · rfl
      · rfl
      · show (if e = d ∧ g = f ∧ b = true then _ else _) = _
        rw [if_neg fun hh => hs ⟨hh.1, hh.2.1⟩]

/-- What is seen of the file is what is seen of the file alone. -/
theorem fileLog_alone : ∀ (cs : List Cmd) {s : Fs} {b : Bool} {w : World}, Sep s → Sim d f b s w → (∀ c ∈ cs, CmdOk c ∧ Keeps d f c) →
    fileLog d f b (s.log cs) = log w ((fileLog d f b (s.log cs)).map (·.1))
  | [], s, b, w, _, _, _ => rfl
  | c :: cs, s, b, w, hsep, h, hc => by
    obtain ⟨hok, hk⟩ := hc c (by simp)
    obtain ⟨b', w', h', ht⟩ := sim_step hsep h hok hk.1
    obtain ⟨pre, e1, e2, e3⟩ := fileLog_step ht hk (Fs.log (s.step c).2 cs)
    have ih := fileLog_alone cs (hsep.step c) h' fun c hc' => hc c (by simp [hc'])
    show fileLog d f b ((c, (s.step c).1) :: Fs.log (s.step c).2 cs) = log w ((fileLog d f b ((c, (s.step c).1) :: Fs.log (s.step c).2 cs)).map (·.1))
    rw [e1, List.map_append, log_append, e2, e3, ← ih]

/-- The file alone is in a good state, and its cache has only entries of it. -/
def Good (w : World) : Prop := WInv w ∧ others w.name w.cache = []

theorem good_fresh (hf : NoQ f) : Good (fresh [] f) := ⟨(winv_fresh (cache := []) hf fun e he => by cases he).1, rfl⟩

theorem Good.step {w : World} (h : Good w) (c : Call) : Good (step w c).2 := by
  obtain ⟨-, h2, h3, h4⟩ := step_spec h.1 c
  exact ⟨h2, by rw [h3, h4, h.2]⟩

theorem explains_notOpen (v : Contents) (c : Call) : Explains v c (notOpen c) v := by
  cases c <;> first | exact .inr ⟨by simp, rfl⟩ | rfl | exact .inl rfl | exact ⟨fun p _ => rfl, fun p _ => .inr ⟨by simp, rfl⟩⟩

theorem trans_good {c : Cmd} {a : Ans} {b' : Bool} {w' : World} (hf : NoQ f) (hn : w.name = f) (hg : Good w) (ht : Trans d f b w c a b' w') :
    Good w' ∧ FsExplains d f w.bytes c a w'.bytes := by
  have same : ∀ {b' : Bool} {w' : World}, b' = b ∧ w' = w → Good w' ∧ w'.bytes = w.bytes := fun h => by rw [h.2]; exact ⟨hg, rfl⟩
  have hre : Good (step w .reopen).2 ∧ (step w .reopen).2.bytes = w.bytes := by
    have := (step_spec hg.1 .reopen).1
    exact ⟨hg.step .reopen, rfl⟩
  cases c with
  | load => rw [ht.2]; exact ⟨hg, rfl⟩
  | unmount => exact same ht
  | openDir e evs => exact same ht
  | deleteDir e evs => exact same ht
  | fileExists e g evs => exact same ht
  | sync e g => exact same ht
  | openFile e g evs =>
    by_cases hs : e = d ∧ g = f ∧ a = .unit (.ok ())
    · obtain ⟨-, h2⟩ := ht.1 hs
      rw [h2]
      split
      · exact ⟨hg, rfl⟩
      · exact hre
    · exact same (ht.2 hs)
  | deleteFile e g evs =>
    by_cases hs : e = d ∧ g = f
    · have hn : (fresh [] f).bytes = nothing := (winv_fresh (cache := []) hf fun e he => by cases he).2
      rcases ht.1 hs with ⟨⟨r, rfl⟩, -, rfl⟩ | ⟨h1, -, rfl | rfl⟩
      · refine ⟨good_fresh hf, ?_⟩
        show if e = d ∧ g = f then _ else _
        rw [if_pos hs]; exact .inl hn
      · refine ⟨hg, ?_⟩
        show if e = d ∧ g = f then _ else _
        rw [if_pos hs]; exact .inr ⟨h1, rfl⟩
      · refine ⟨good_fresh hf, ?_⟩
        show if e = d ∧ g = f then _ else _
        rw [if_pos hs]; exact .inl hn
    · obtain ⟨h1, h2⟩ := same (ht.2 hs)
      refine ⟨h1, ?_⟩
      show if e = d ∧ g = f then _ else _
      rw [if_neg hs]; exact h2
  | call e g c =>
    by_cases hs : e = d ∧ g = f
    · rcases ht.1 hs with ⟨rfl, h1, h2⟩ | ⟨hb, rfl, h1, h2⟩ | ⟨hb, rfl, h1, h2⟩
      · exact same ⟨h1, h2⟩
      · rw [h2]
        refine ⟨hg, ?_⟩
        show if e = d ∧ g = f then _ else _
        rw [if_pos hs]; exact explains_notOpen _ _
      · rw [h2]
        refine ⟨hg.step c, ?_⟩
        show if e = d ∧ g = f then _ else _
        rw [if_pos hs]; exact (step_spec hg.1 c).1
    · obtain ⟨h1, h2⟩ := same (ht.2 hs)
      refine ⟨h1, ?_⟩
      cases a with
      | file s => show if e = d ∧ g = f then _ else _; rw [if_neg hs]; exact h2
      | _ => exact h2

theorem sim_run : ∀ (cs : List Cmd) {s : Fs} {b : Bool} {w : World}, Sep s → Sim d f b s w → Good w → (∀ c ∈ cs, CmdOk c ∧ KeepsDir d c) →
    ∃ b' w', Sim d f b' (s.run cs) w' ∧ Good w' ∧ FsPossible d f w.bytes (s.log cs) w'.bytes
  | [], s, b, w, _, h, hg, _ => ⟨b, w, h, hg, rfl⟩
  | c :: cs, s, b, w, hsep, h, hg, hc => by
    obtain ⟨hok, hk⟩ := hc c (by simp)
    obtain ⟨b', w', h', ht⟩ := sim_step hsep h hok hk
    obtain ⟨hg', he⟩ := trans_good h.noQ h.name hg ht
    obtain ⟨b'', w'', h1, h2, h3⟩ := sim_run cs (hsep.step c) h' hg' fun c hc' => hc c (by simp [hc'])
    exact ⟨b'', w'', h1, h2, w'.bytes, he, h3⟩

theorem sim_init (hf : NoQ f) : Sim d f false Fs.init (fresh [] f) :=
  ⟨hf, rfl, rfl, fun dirs e => (by cases e), fun dirs e => (by cases e)⟩

theorem others_nil {cache : Cache} (h : others f cache = []) : ∀ e ∈ cache, ∃ c, parseRequest e.1 f = some c := by
  intro e he
  match hp : parseRequest e.1 f with
  | some c => exact ⟨c, rfl⟩
  | none =>
    have : e ∈ others f cache := by unfold others; rw [List.mem_filter]; exact ⟨he, by simp [hp]⟩
    rw [h] at this
    cases this

theorem Good.own {w : World} (h : Good w) : own w.name w.cache = w.cache := by
  unfold Browser.own
  refine List.filter_eq_self.2 fun e he => ?_
  obtain ⟨c, hc⟩ := others_nil h.2 e he
  unfold parseRequest at hc
  dsimp only at hc
  split at hc
  · split at hc
    · exact decide_eq_true ‹_›
    · cases hc
  · cases hc

/-- A file without chunks has no entries. -/
theorem Good.nil {w : World} (h : Good w) (hc : chunksOf w.cache w.name = []) : w.cache = [] := by
  match hcache : w.cache with
  | [] => rfl
  | e :: es =>
    obtain ⟨c, hp⟩ := others_nil h.2 e (by rw [hcache]; simp)
    have : c ∈ chunksOf w.cache w.name := mem_chunksOf.2 ⟨e, by rw [hcache]; simp, hp⟩
    rw [hc] at this
    cases this

end Radix.Browser
