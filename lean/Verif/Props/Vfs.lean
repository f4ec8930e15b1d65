import Verif.Proofs.VfsServed

/-
C84: what SQLite sees of its files.

A history is a list of calls of SQLite (`VCmd`) on any number of files, mixed with other calls of the program on the same file system (loading the page, opening directories, calls on files), each with what happens to its cache
operations: success, failure, or the page is closed before or after the operation. `vlog` is what is seen. `Spec/Vfs.lean` says which answers make sense.
-/

set_option linter.unusedVariables false

namespace Radix.Browser

open Radix.Spec

variable {d f : Name}

/-- **C84** (partial: bytes that were written can be missing in what is read, see `C84_false`). For every history in which the directory is not deleted there are contents of each file between the calls, starting with nothing, that explain all
answers. A write that is told to have written all bytes has changed the contents as asked, and there is no other number told; a write that returns an error, or during which the page is closed, has changed them as asked or not at all. Whatever is read
is in the contents, also after the page was loaded again. Calls on other files do not change them. -/
theorem C84_contents_partial (hf : Plain f) {vs : List VCmd} (hv : ∀ c ∈ vs, VCmdOk c ∧ VKeepsDir d c) : ∃ v, VPossible d f nothing (vlog Fs.init vs) v := by
  obtain ⟨b, w, -, -, h⟩ := vrun_spec hf vs sep_init (sim_init (plain_noQ hf)) (good_fresh (plain_noQ hf)) hv
  rw [(winv_fresh (cache := []) (plain_noQ hf) fun e he => by cases he).2] at h
  exact ⟨_, h⟩

/-- **C84** (partial). In every state: if a read is answered with bytes, then the size that would be told of the file is a number, and as many bytes are read as there are before it, or as were asked for. -/
theorem C84_size_partial {s : Fs} {start n : Nat} {evs : List Ev} {bs : Bytes} (h : (vstep s (.read d f start n evs)).1 = .bytes bs) :
    ∃ len, (vstep s (.fileSize d f)).1 = .num len ∧ bs.length = min len (start + n) - start := by
  obtain ⟨len, data, h1, -, -, -, h2⟩ := vread_bytes h
  refine ⟨len, ?_, h2⟩
  show VAns.ofFile _ _ _ (s.step (.call d f .length)).1 = _
  rw [h1]; rfl

theorem vlog_append : ∀ (a b : List VCmd) (s : Fs), vlog s (a ++ b) = vlog s a ++ vlog (vrun s a) b
  | [], b, s => rfl
  | c :: a, b, s => congrArg (_ :: ·) (vlog_append a b (vstep s c).2)

/-- **C84** (partial). No call of SQLite panics, if no end of a read is beyond `2 ^ 64`, whatever happened before. -/
theorem C84_no_panic_partial {vs : List VCmd} (hv : ∀ c ∈ vs, VCmdOk c ∧ VKeepsDir d c) {c : VCmd} (hok : VCmdOk c) (hd : ∀ e g start n evs, c = .read e g start n evs → e = d ∧ start + n < 2 ^ 64) :
    (vstep (vrun Fs.init vs) c).1 ≠ .panic := by
  have hsep : Sep (vrun Fs.init vs) := Sep.vrun vs sep_init
  have out : ∀ {α : Type} (g : α → VAns) (r : Out α), (∀ a, g a ≠ .panic) → VAns.ofOut g r ≠ .panic := by
    intro α g r hg
    cases r with
    | ok a => exact hg a
    | _ => exact fun h => by cases h
  have ans : ∀ (g : Unit → VAns) (h : Bool → VAns) (a : Ans), (∀ a, g a ≠ .panic) → (∀ a, h a ≠ .panic) → VAns.ofAns g h a ≠ .panic := by
    intro g h a hg hh
    cases a with
    | unit r => exact out g r hg
    | bool r => exact out h r hh
    | _ => exact fun h => by cases h
  have file : ∀ (g : Unit → VAns) (h : Bytes → VAns) (n : Nat → VAns) (a : Ans), (∀ a, g a ≠ .panic) → (∀ bs, a = .file (.bytes (.ok bs)) → h bs ≠ .panic) → (∀ a, n a ≠ .panic) →
      VAns.ofFile g h n a ≠ .panic := by
    intro g h n a hg hh hn
    cases a with
    | file x =>
      cases x with
      | done r => exact out g r hg
      | bytes r =>
        cases r with
        | ok bs => exact hh bs rfl
        | _ => exact fun h => by cases h
      | num k => exact hn k
      | _ => exact fun h => by cases h
    | _ => exact fun h => by cases h
  cases c with
  | other c => exact fun h => by cases h
  | «open» e g evs => exact ans _ _ _ (fun _ h => by cases h) (fun _ h => by cases h)
  | delete e g evs => exact ans _ _ _ (fun _ h => by cases h) (fun _ h => by cases h)
  | «exists» e g evs => exact ans _ _ _ (fun _ h => by cases h) (fun _ h => by cases h)
  | write e g o buf evs => exact file _ _ _ _ (fun _ h => by cases h) (fun _ _ h => by cases h) (fun _ h => by cases h)
  | fileSize e g => exact file _ _ _ _ (fun _ h => by cases h) (fun _ _ h => by cases h) (fun _ h => by cases h)
  | truncate e g n evs => exact file _ _ _ _ (fun _ h => by cases h) (fun _ _ h => by cases h) (fun _ h => by cases h)
  | sync e g => exact ans _ _ _ (fun _ h => by cases h) (fun _ h => by cases h)
  | read e g start n evs =>
    obtain ⟨rfl, hn⟩ := hd _ _ _ _ _ rfl
    have hg : Plain g := hok
    obtain ⟨b, w, hsim, hgd, -⟩ := vrun_spec (d := e) hg vs sep_init (sim_init (plain_noQ hg)) (good_fresh (plain_noQ hg)) hv
    show vread _ e g start n evs ≠ .panic
    unfold vread
    split
    · rename_i len s' hl
      rw [if_pos hn]
      refine file _ _ _ _ (fun _ h => by cases h) (fun bs hbs => ?_) (fun _ h => by cases h)
      have hs' : s' = ((vrun Fs.init vs).step (.call e g .length)).2 := by rw [hl]
      obtain ⟨b1, w1, h1, rfl, rfl⟩ := length_keeps hsep hg hg hsim hgd (e := e)
      rw [← hs'] at h1
      have hsep' : Sep s' := by rw [hs']; exact hsep.step _
      obtain ⟨b2, w2, h2, t⟩ := sim_step hsep' h1 (c := .call e g (.read start (min len (start + n)) evs)) ⟨hg, by simp⟩ (fun evs => by simp)
      obtain ⟨-, he⟩ := trans_good (plain_noQ hg) h1.name hgd t
      rw [hbs] at he
      have he : if e = e ∧ g = g then _ else _ := he
      rw [if_pos ⟨rfl, rfl⟩] at he
      have hlen : bs.length = min len (start + n) - start := he.2.1
      rw [if_pos (by omega)]
      exact fun h => by cases h
    · exact fun h => by cases h

/-- After the page was loaded and the directory opened, the directory is open. -/
theorem opened_loaded {vs : List VCmd} {evs : List Ev} (he : AllOk evs) : Opened d [] (vrun Fs.init (vs ++ [.other .load, .other (.openDir d evs)])) := by
  rw [vrun_append]
  generalize vrun Fs.init vs = s
  show Opened d [] ((({ s with dirs := some fun _ => none } : Fs).step (.openDir d evs)).2)
  unfold Fs.step
  dsimp only
  unfold Fs.openDir
  dsimp only
  rw [browserOp_ok he]
  obtain ⟨a, ha⟩ := make_storage { s with dirs := some fun _ => none } d
  refine ⟨fun e => if e = d then some ⟨a, fun _ => none⟩ else none, ⟨a, fun _ => none⟩, ?_, ?_, fun g hg => by cases hg⟩
  · unfold Fs.addDir
    rw [make_dirs, ha]
    rfl
  · exact if_pos rfl

/-- **C84** (partial: for files below 2 GiB). After every history, also one with failures and with the page closed at any time: when the page was loaded and the directory opened, and from then on no operation of the browser fails, all calls that SQLite makes on files it has opened
and not deleted succeed, as long as the writes of all sessions end below 2 GiB. -/
theorem C84_served_partial {vs cs : List VCmd} {evs : List Ev} (hv : ∀ c ∈ vs, VCmdOk c ∧ VKeepsDir d c) (he : AllOk evs) (hs : Sound d [] cs) (hr : ∀ f, vreach d f 0 (vs ++ cs) < 2 ^ 31)
    (hn : vs.length + cs.length < 2 ^ 62) : ∀ e ∈ vlog (vrun Fs.init (vs ++ [.other .load, .other (.openDir d evs)])) cs, Served e.1 e.2 := by
  refine served_run cs ?_ ?_ ?_ (opened_loaded he) hs
  · intro c hc
    rcases List.mem_append.1 hc with hc | hc
    · exact hv c hc
    · rcases List.mem_cons.1 hc with rfl | hc
      · exact ⟨trivial, fun evs => by simp⟩
      · cases List.mem_singleton.1 hc; exact ⟨trivial, fun evs => by simp⟩
  · intro f
    have := hr f
    rw [vreach_append] at this
    rw [vreach_append, vreach_append]
    exact this
  · rw [List.length_append]
    show 2 * (vs.length + 2 + cs.length) < 2 ^ 64
    omega

theorem possible_after : ∀ (cs : List VCmd) {s : Fs} {v v' : Contents}, (∀ c ∈ cs, ∀ x, c ≠ .other x) → (∀ e ∈ vlog s cs, Served e.1 e.2) → VPossible d f v (vlog s cs) v' → v' = vafter d f v cs
  | [], s, v, v', _, _, h => h
  | c :: cs, s, v, v', hc, hs, h => by
    obtain ⟨u, h1, h2⟩ := h
    have h0 := hs _ (List.mem_cons_self ..)
    have h3 := possible_after cs (fun c h => hc c (List.mem_cons_of_mem _ h)) (fun e he => hs e (List.mem_cons_of_mem _ he)) h2
    rw [h3]
    revert h0 h1
    dsimp only
    generalize (vstep s c).1 = a
    intro h1 h0
    cases c with
    | other x => exact absurd rfl (hc _ (List.mem_cons_self ..) x)
    | «open» e g evs => have h1 : u = v := h1; rw [h1]; rfl
    | fileSize e g => have h1 : u = v := h1; rw [h1]; rfl
    | sync e g => have h1 : u = v := h1; rw [h1]; rfl
    | «exists» e g evs =>
      obtain ⟨b, rfl⟩ := h0
      have h1 : u = v := h1.1
      rw [h1]; rfl
    | read e g a n evs =>
      obtain ⟨bs, rfl, -⟩ := h0
      have h1 : u = v := h1.1
      rw [h1]; rfl
    | delete e g evs =>
      have h0 : a = .unit := h0
      subst h0
      have h1 : if e = d ∧ g = f then _ else _ := h1
      show _ = vafter d f (if e = d ∧ g = f then nothing else v) cs
      split at h1
      · rename_i hh
        rw [if_pos hh]
        rcases h1 with h1 | ⟨h1 | h1, -⟩
        · rw [h1]
        · cases h1
        · cases h1
      · rename_i hh
        rw [if_neg hh, h1]
    | write e g o buf evs =>
      have h0 : a = .num buf.length := h0
      subst h0
      have h1 : if e = d ∧ g = f then _ else _ := h1
      show _ = vafter d f (if e = d ∧ g = f then overwrite v o buf else v) cs
      split at h1
      · rename_i hh
        rw [if_pos hh]
        rcases h1 with ⟨-, h1⟩ | ⟨h1 | h1, -⟩
        · rw [h1]
        · cases h1
        · cases h1
      · rename_i hh
        rw [if_neg hh, h1]
    | truncate e g n evs =>
      have h0 : a = .unit := h0
      subst h0
      have h1 : if e = d ∧ g = f then _ else _ := h1
      show _ = vafter d f (if e = d ∧ g = f then fun p => if p < n then v p else 0 else v) cs
      split at h1
      · rename_i hh
        rw [if_pos hh]
        rcases h1 with ⟨hlow, ⟨-, h1⟩ | ⟨h1 | h1, -⟩⟩
        · congr 1
          funext p
          split
          · rename_i hp; exact hlow p hp
          · rename_i hp; exact h1 p (by omega)
        · cases h1
        · cases h1
      · rename_i hh
        rw [if_neg hh, h1]

theorem sound_other : ∀ (cs : List VCmd) {o : List Name}, Sound d o cs → ∀ c ∈ cs, (∀ x, c ≠ .other x) ∧ VCmdOk c ∧ VKeepsDir d c
  | [], o, h, c, hc => by cases hc
  | c' :: cs, o, h, c, hc => by
    have tail : ∃ o', Sound d o' cs := by
      cases c' with
      | other x => exact h.elim
      | _ => exact ⟨_, h.2⟩
    rcases List.mem_cons.1 hc with rfl | hc
    · cases c with
      | other x => exact h.elim
      | fileSize e g => exact ⟨fun x => by simp, h.1.2.1, fun evs => by simp⟩
      | sync e g => exact ⟨fun x => by simp, h.1.2.1, fun evs => by simp⟩
      | «open» e g evs => exact ⟨fun x => by simp, h.1.2.1, fun evs => by simp⟩
      | delete e g evs => exact ⟨fun x => by simp, h.1.2.1, fun evs => by simp⟩
      | «exists» e g evs => exact ⟨fun x => by simp, h.1.2.1, fun evs => by simp⟩
      | read e g a n evs => exact ⟨fun x => by simp, h.1.2.1, fun evs => by simp⟩
      | write e g a n evs => exact ⟨fun x => by simp, h.1.2.1, fun evs => by simp⟩
      | truncate e g n evs => exact ⟨fun x => by simp, h.1.2.1, fun evs => by simp⟩
    · obtain ⟨o', h'⟩ := tail
      exact sound_other cs h' c hc

theorem vpossible_append : ∀ {l l' : List (VCmd × VAns)} {v v' : Contents}, VPossible d f v (l ++ l') v' → ∃ u, VPossible d f v l u ∧ VPossible d f u l' v'
  | [], l', v, v', h => ⟨v, rfl, h⟩
  | e :: l, l', v, v', h => by
    obtain ⟨u, h1, h2⟩ := h
    obtain ⟨u', h3, h4⟩ := vpossible_append h2
    exact ⟨u', ⟨u, h1, h3⟩, h4⟩

/-- **C84** (partial: the size that is told can be less than what was written, see `C84_false`). After every history there are contents `v` of the file that explain it, so that: when the page was loaded, the directory opened, and no operation of the browser fails from then on, each read gives the
bytes that were last written since then, where nothing was written those of `v`, and 0 where the file was cut or was deleted, up to the size that is told of the file. -/
theorem C84_last_written_partial {vs pre post : List VCmd} {start n : Nat} {evs oevs : List Ev} (hv : ∀ c ∈ vs, VCmdOk c ∧ VKeepsDir d c) (he : AllOk oevs) (hs : Sound d [] (pre ++ .read d f start n evs :: post))
    (hr : ∀ g, vreach d g 0 (vs ++ (pre ++ .read d f start n evs :: post)) < 2 ^ 31) (hn : vs.length + pre.length + post.length < 2 ^ 61) :
    ∃ v bs len, VPossible d f nothing (vlog Fs.init vs) v ∧
      (vstep (vrun Fs.init (vs ++ .other .load :: .other (.openDir d oevs) :: pre)) (.read d f start n evs)).1 = .bytes bs ∧
      (vstep (vrun Fs.init (vs ++ .other .load :: .other (.openDir d oevs) :: pre)) (.fileSize d f)).1 = .num len ∧ bs.length = min len (start + n) - start ∧
      ∀ i, i < bs.length → bs[i]? = some (vafter d f v pre (start + i)) := by
  have hserved := C84_served_partial hv he hs hr (by rw [List.length_append, List.length_cons]; omega)
  have hok := sound_other _ hs
  rw [vlog_append] at hserved
  have hread := hserved _ (List.mem_append_right _ (List.mem_cons_self ..))
  have e1 : vrun (vrun Fs.init (vs ++ [VCmd.other .load, .other (.openDir d oevs)])) pre = vrun Fs.init (vs ++ .other .load :: .other (.openDir d oevs) :: pre) := by
    rw [← vrun_append, List.append_assoc]; rfl
  rw [e1] at hread
  obtain ⟨bs, hbs, -⟩ := hread
  have hbs : (vstep (vrun Fs.init (vs ++ .other .load :: .other (.openDir d oevs) :: pre)) (.read d f start n evs)).1 = .bytes bs := hbs
  obtain ⟨len, hl, hlen⟩ := C84_size_partial hbs
  have hf : Plain f := (hok _ (List.mem_append_right _ (List.mem_cons_self ..))).2.1
  obtain ⟨v', hv'⟩ := C84_contents_partial (d := d) hf (vs := (vs ++ .other .load :: .other (.openDir d oevs) :: pre) ++ [.read d f start n evs]) (by
    intro c hc
    rcases List.mem_append.1 hc with hc | hc
    · rcases List.mem_append.1 hc with hc | hc
      · exact hv c hc
      · rcases List.mem_cons.1 hc with rfl | hc
        · exact ⟨trivial, fun evs => by simp⟩
        · rcases List.mem_cons.1 hc with rfl | hc
          · exact ⟨trivial, fun evs => by simp⟩
          · exact (hok c (List.mem_append_left _ hc)).2
    · cases List.mem_singleton.1 hc; exact ⟨hf, fun evs => by simp⟩)
  rw [vlog_append] at hv'
  obtain ⟨u, hv1, hv2⟩ := vpossible_append hv'
  rw [vlog_append] at hv1
  obtain ⟨v, hv0, hv1⟩ := vpossible_append hv1
  refine ⟨v, bs, len, hv0, hbs, hl, hlen, ?_⟩
  obtain ⟨u1, hu1, u2, hu2, hv1⟩ := hv1
  have hu1 : u1 = v := hu1
  have hu2 : u2 = u1 := hu2
  rw [hu2, hu1] at hv1
  have hu := possible_after pre (s := vrun Fs.init (vs ++ [VCmd.other .load, .other (.openDir d oevs)])) (fun c hc => (hok c (List.mem_append_left _ hc)).1)
    (fun e he => hserved e (List.mem_append_left _ he)) (by rw [vrun_append]; exact hv1)
  obtain ⟨u3, hv2, -⟩ := hv2
  rw [hbs] at hv2
  have := hv2.2.2 ⟨rfl, rfl⟩
  rw [hu] at this
  exact this

/-! ### Examples -/

/-- A database file with two pages and a journal that is written, used and deleted, the page is closed within a write and loaded again. -/
def exV : List VCmd :=
  [.other .load, .other (.openDir dirD []), .open dirD fileA [], .fileSize dirD fileA, .write dirD fileA 0 [1, 2, 3, 4] [], .write dirD fileA 4 [5, 6, 7, 8] [], .open dirD fileB [],
    .write dirD fileB 0 [1, 2, 3, 4] [], .sync dirD fileB, .write dirD fileA 4 [9, 9, 9, 9] [.ok, .crash false], .read dirD fileA 0 4 [], .other .load, .other (.openDir dirD []), .exists dirD fileB [],
    .open dirD fileB [], .read dirD fileB 0 8 [], .open dirD fileA [], .write dirD fileA 0 [1, 2, 3, 4] [.fail], .truncate dirD fileA 4 [], .delete dirD fileB [], .exists dirD fileB [], .read dirD fileA 2 4 []]

/-- What is seen of it. -/
example : (vlog Fs.init exV).map (·.2) =
    [.other (.unit (.ok ())), .other (.unit (.ok ())), .unit, .num 0, .num 4, .num 4, .unit, .num 4, .unit, .gone, .ioerr, .other (.unit (.ok ())), .other (.unit (.ok ())), .bool true,
      .unit, .bytes [1, 2, 3, 4], .unit, .ioerr, .unit, .unit, .bool false, .bytes [3, 4]] := by decide +kernel

theorem plain_ab {g : Name} (h : g = fileA ∨ g = fileB) : Plain g := by
  rcases h with rfl | rfl
  · exact plain_a
  · exact plain_b

/-- Whether the conditions of the theorems hold (for examples). -/
def okV (d : Name) : VCmd → Bool
  | .other .load => true
  | .other (.openDir _ _) => true
  | .other _ => false
  | .open _ g _ => g = fileA ∨ g = fileB
  | .delete _ g _ => g = fileA ∨ g = fileB
  | .exists _ g _ => g = fileA ∨ g = fileB
  | .read _ g _ _ _ => g = fileA ∨ g = fileB
  | .write _ g _ _ _ => g = fileA ∨ g = fileB
  | .fileSize _ g => g = fileA ∨ g = fileB
  | .truncate _ g _ _ => g = fileA ∨ g = fileB
  | .sync _ g => g = fileA ∨ g = fileB

theorem okV_spec {c : VCmd} (h : okV d c = true) : VCmdOk c ∧ VKeepsDir d c := by
  cases c with
  | other c =>
    cases c with
    | load => exact ⟨trivial, fun evs => by simp⟩
    | openDir e evs => exact ⟨trivial, fun evs => by simp⟩
    | _ => cases h
  | «open» e g evs => exact ⟨plain_ab (of_decide_eq_true h), fun evs => by simp⟩
  | delete e g evs => exact ⟨plain_ab (of_decide_eq_true h), fun evs => by simp⟩
  | «exists» e g evs => exact ⟨plain_ab (of_decide_eq_true h), fun evs => by simp⟩
  | read e g a n evs => exact ⟨plain_ab (of_decide_eq_true h), fun evs => by simp⟩
  | write e g a n evs => exact ⟨plain_ab (of_decide_eq_true h), fun evs => by simp⟩
  | fileSize e g => exact ⟨plain_ab (of_decide_eq_true h), fun evs => by simp⟩
  | truncate e g n evs => exact ⟨plain_ab (of_decide_eq_true h), fun evs => by simp⟩
  | sync e g => exact ⟨plain_ab (of_decide_eq_true h), fun evs => by simp⟩

theorem exV_ok : ∀ c ∈ exV, VCmdOk c ∧ VKeepsDir dirD c := fun c hc => okV_spec (List.all_eq_true.1 (by decide +kernel : exV.all (okV dirD) = true) c hc)

example : ∃ v, VPossible dirD fileA nothing (vlog Fs.init exV) v := C84_contents_partial plain_a exV_ok

/-- Calls after that history that are all served. -/
def exServed : List VCmd :=
  [.exists dirD fileA [], .open dirD fileA [], .open dirD fileB [], .write dirD fileB 0 [1, 2] [.ok], .write dirD fileA 0 [7, 7] [], .sync dirD fileA, .delete dirD fileB [], .fileSize dirD fileA, .read dirD fileA 0 100 [],
    .truncate dirD fileA 1 []]

theorem exServed_sound : Sound dirD [] exServed := by
  have ok : ∀ {evs : List Ev}, evs = [] ∨ evs = [.ok] → AllOk evs := by
    intro evs h e he
    rcases h with rfl | rfl
    · cases he
    · exact List.mem_singleton.1 he
  refine ⟨⟨rfl, plain_a, ok (.inl rfl)⟩, ⟨rfl, plain_a, ok (.inl rfl)⟩, ⟨rfl, plain_b, ok (.inl rfl)⟩, ⟨rfl, plain_b, ok (.inr rfl), by decide⟩, ⟨rfl, plain_a, ok (.inl rfl), by decide⟩, ⟨rfl, plain_a, by decide⟩,
    ⟨rfl, plain_b, ok (.inl rfl)⟩, ⟨rfl, plain_a, by decide +kernel⟩, ⟨rfl, plain_a, ok (.inl rfl), by decide +kernel, by decide⟩, ⟨rfl, plain_a, ok (.inl rfl), by decide +kernel⟩, trivial⟩

theorem vreach_small {N : Nat} {cs : List VCmd} (h : ∀ c ∈ cs, (∀ e g o buf evs, c = .write e g o buf evs → o + buf.length ≤ N) ∧ ∀ e g x, c ≠ .other (.call e g x)) (f : Name) : ∀ n, n ≤ N → vreach d f n cs ≤ N := by
  induction cs with
  | nil => exact fun n hn => hn
  | cons c cs ih =>
    intro n hn
    rw [vreach_cons]
    refine ih (fun c hc => h c (List.mem_cons_of_mem _ hc)) _ ?_
    have := h c (List.mem_cons_self ..)
    cases c with
    | write e g o buf evs =>
      have := this.1 _ _ _ _ _ rfl
      show (if _ then max n (o + buf.length) else n) ≤ N
      split
      · exact Nat.max_le.2 ⟨hn, this⟩
      · exact hn
    | other x =>
      cases x with
      | call e g x => exact absurd rfl (this.2 e g x)
      | _ => exact hn
    | _ => exact hn

/-- Whether writes are small and there are no other calls on files (for examples). -/
def smallV (N : Nat) : VCmd → Bool
  | .write _ _ o buf _ => o + buf.length ≤ N
  | .other (.call _ _ _) => false
  | _ => true

theorem vreach_of {N : Nat} {cs : List VCmd} (h : cs.all (smallV N) = true) (f : Name) : vreach d f 0 cs ≤ N := by
  refine vreach_small (fun c hc => ?_) f 0 (Nat.zero_le _)
  have := List.all_eq_true.1 h c hc
  refine ⟨?_, ?_⟩
  · rintro e g o buf evs rfl
    exact of_decide_eq_true this
  · rintro e g x rfl
    cases this

example : ∀ e ∈ vlog (vrun Fs.init (exV ++ [.other .load, .other (.openDir dirD [])])) exServed, Served e.1 e.2 :=
  C84_served_partial exV_ok (fun e he => by cases he) exServed_sound (fun f => Nat.lt_of_le_of_lt (vreach_of (N := 100) (by decide +kernel) f) (by decide)) (by decide)

/-- What they see. -/
example : (vlog (vrun Fs.init (exV ++ [.other .load, .other (.openDir dirD [])])) exServed).map (·.2) =
    [.bool true, .unit, .unit, .num 2, .num 2, .unit, .unit, .num 4, .bytes [7, 7, 3, 4], .unit] := by decide +kernel

example : ∃ v bs len, VPossible dirD fileA nothing (vlog Fs.init exV) v ∧
    (vstep (vrun Fs.init (exV ++ .other .load :: .other (.openDir dirD []) :: exServed.take 8)) (.read dirD fileA 0 100 [])).1 = .bytes bs ∧
    (vstep (vrun Fs.init (exV ++ .other .load :: .other (.openDir dirD []) :: exServed.take 8)) (.fileSize dirD fileA)).1 = .num len ∧ bs.length = min len (0 + 100) - 0 ∧
    ∀ i, i < bs.length → bs[i]? = some (vafter dirD fileA v (exServed.take 8) (0 + i)) :=
  C84_last_written_partial (post := [.truncate dirD fileA 1 []]) exV_ok (fun e he => by cases he) exServed_sound (fun f => Nat.lt_of_le_of_lt (vreach_of (N := 100) (by decide +kernel) f) (by decide)) (by decide)

/-- **C84** is false: SQLite writes two pages of a database and then the first page again, as it does in every transaction. All calls succeed. Then the size of the file is that of one page, and the second page cannot be read. -/
theorem C84_false :
    (vlog Fs.init [.other .load, .other (.openDir dirD []), .open dirD fileA [], .write dirD fileA 0 [1, 2, 3, 4] [], .write dirD fileA 4 [5, 6, 7, 8] [], .fileSize dirD fileA, .read dirD fileA 4 4 [],
      .write dirD fileA 0 [9, 2, 3, 4] [], .fileSize dirD fileA, .read dirD fileA 4 4 []]).map (·.2) =
    [.other (.unit (.ok ())), .other (.unit (.ok ())), .unit, .num 4, .num 4, .num 8, .bytes [5, 6, 7, 8], .num 4, .num 4, .bytes []] := by decide +kernel

/-- **C84** is false for other reasons: reading beyond `2 ^ 64` panics. -/
theorem C84_panic_false : (vlog Fs.init [.other .load, .other (.openDir dirD []), .open dirD fileA [], .read dirD fileA (2 ^ 64 - 1) 1 []]).map (·.2) =
    [.other (.unit (.ok ())), .other (.unit (.ok ())), .unit, .panic] := by decide +kernel

end Radix.Browser
