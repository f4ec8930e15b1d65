import Verif.Props.BrowserFs
import Verif.Spec.Vfs

/-
Calls of SQLite: lemmas.
-/

set_option linter.unusedVariables false

namespace Radix.Browser

open Radix.Spec

variable {d f : Name} {b : Bool} {s : Fs} {w : World}

theorem vrun_append : ∀ (a b : List VCmd) (s : Fs), vrun s (a ++ b) = vrun (vrun s a) b
  | [], b, s => rfl
  | c :: a, b, s => vrun_append a b (vstep s c).2

/-- The calls made are calls of the API that do not delete the directory. -/
theorem cmds_ok {c : VCmd} (hok : VCmdOk c) (hk : VKeepsDir d c) (s : Fs) : ∀ x ∈ c.cmds s, CmdOk x ∧ KeepsDir d x := by
  intro x hx
  cases c with
  | other c =>
    cases List.mem_singleton.1 hx
    exact ⟨hok, fun evs e => hk evs (by rw [e])⟩
  | read e g a n evs =>
    rcases List.mem_cons.1 hx with rfl | hx
    · exact ⟨⟨hok, by simp⟩, fun evs => by simp⟩
    · split at hx
      · split at hx
        · cases List.mem_singleton.1 hx
          exact ⟨⟨hok, by simp⟩, fun evs => by simp⟩
        · cases hx
      · cases hx
  | write e g a n evs => cases List.mem_singleton.1 hx; exact ⟨⟨hok, by simp⟩, fun evs => by simp⟩
  | truncate e g n evs => cases List.mem_singleton.1 hx; exact ⟨⟨hok, by simp⟩, fun evs => by simp⟩
  | fileSize e g => cases List.mem_singleton.1 hx; exact ⟨⟨hok, by simp⟩, fun evs => by simp⟩
  | «open» e g evs => cases List.mem_singleton.1 hx; exact ⟨hok, fun evs => by simp⟩
  | delete e g evs => cases List.mem_singleton.1 hx; exact ⟨hok, fun evs => by simp⟩
  | «exists» e g evs => cases List.mem_singleton.1 hx; exact ⟨hok, fun evs => by simp⟩
  | sync e g => cases List.mem_singleton.1 hx; exact ⟨hok, fun evs => by simp⟩

/-- The length is only asked for. -/
theorem length_keeps (hs : Sep s) (hf : Plain f) {e g : Name} (hg : Plain g) (h : Sim d f b s w) (hgd : Good w) :
    ∃ b' w', Sim d f b' (s.step (.call e g .length)).2 w' ∧ w' = w ∧ b' = b := by
  obtain ⟨b', w', h', t⟩ := sim_step hs h (c := .call e g .length) ⟨hg, by simp⟩ (fun evs => by simp)
  refine ⟨b', w', h', ?_⟩
  by_cases hd : e = d ∧ g = f
  · rcases t.1 hd with ⟨-, t1, t2⟩ | ⟨-, -, t1, t2⟩ | ⟨-, -, t1, t2⟩
    · exact ⟨t2, t1⟩
    · exact ⟨t2, t1⟩
    · refine ⟨?_, t1⟩
      rw [t2]
      unfold step
      dsimp only
      split <;> rfl
  · exact ⟨(t.2 hd).2, (t.2 hd).1⟩

/-- The answer of a write. -/
theorem write_ans (e g : Name) (o : Nat) (buf : Bytes) (evs : List Ev) (a : Ans) {v v' : Contents} (h : FsExplains d f v (.call e g (.write o buf evs)) a v') :
    VExplains d f v (.write e g o buf evs) (.ofFile (fun _ => .num buf.length) (fun _ => .ioerr) (fun _ => .ioerr) a) v' := by
  show if e = d ∧ g = f then _ else _
  by_cases hs : e = d ∧ g = f
  · rw [if_pos hs]
    cases a with
    | closed => exact .inr ⟨.inl rfl, .inl h⟩
    | unit r => exact .inr ⟨.inl rfl, .inl h⟩
    | bool r => exact .inr ⟨.inl rfl, .inl h⟩
    | file x =>
      have h : if e = d ∧ g = f then _ else _ := h
      rw [if_pos hs] at h
      cases x with
      | opened => exact .inr ⟨.inl rfl, .inl h⟩
      | closed => exact .inr ⟨.inl rfl, .inl h⟩
      | num n => exact .inr ⟨.inl rfl, .inl h⟩
      | bytes r => cases r <;> first | exact .inr ⟨.inl rfl, .inl h⟩ | exact .inr ⟨.inr rfl, .inl h⟩
      | done r =>
        rcases h with h1 | ⟨hr, h1⟩
        · cases r with
          | ok u => exact .inl ⟨rfl, h1⟩
          | err => exact .inr ⟨.inl rfl, .inr h1⟩
          | panic => exact .inr ⟨.inl rfl, .inr h1⟩
          | crash => exact .inr ⟨.inr rfl, .inr h1⟩
        · cases r with
          | ok u => exact absurd rfl hr
          | err => exact .inr ⟨.inl rfl, .inl h1⟩
          | panic => exact .inr ⟨.inl rfl, .inl h1⟩
          | crash => exact .inr ⟨.inr rfl, .inl h1⟩
  · rw [if_neg hs]
    cases a with
    | file x => have h : if e = d ∧ g = f then _ else _ := h; rw [if_neg hs] at h; exact h
    | _ => exact h

/-- The answer of a truncation. -/
theorem truncate_ans (e g : Name) (n : Nat) (evs : List Ev) (a : Ans) {v v' : Contents} (h : FsExplains d f v (.call e g (.truncate n evs)) a v') :
    VExplains d f v (.truncate e g n evs) (.ofFile (fun _ => .unit) (fun _ => .ioerr) (fun _ => .ioerr) a) v' := by
  show if e = d ∧ g = f then _ else _
  by_cases hs : e = d ∧ g = f
  · rw [if_pos hs]
    have same : ∀ {a : VAns}, v' = v → (a = .ioerr ∨ a = .gone) →
        (∀ p, p < n → v' p = v p) ∧ (a = .unit ∧ (∀ p, n ≤ p → v' p = 0) ∨ (a = .ioerr ∨ a = .gone) ∧ ∀ p, n ≤ p → v' p = 0 ∨ v' p = v p) :=
      fun h ha => ⟨fun p _ => by rw [h], .inr ⟨ha, fun p _ => .inr (by rw [h])⟩⟩
    cases a with
    | closed => exact same h (.inl rfl)
    | unit r => exact same h (.inl rfl)
    | bool r => exact same h (.inl rfl)
    | file x =>
      have h : if e = d ∧ g = f then _ else _ := h
      rw [if_pos hs] at h
      cases x with
      | opened => exact same h (.inl rfl)
      | closed => exact same h (.inl rfl)
      | num n => exact same h (.inl rfl)
      | bytes r => cases r <;> first | exact same h (.inl rfl) | exact same h (.inr rfl)
      | done r =>
        have h : (∀ p, p < n → v' p = v p) ∧ ∀ p, n ≤ p → v' p = 0 ∨ r ≠ .ok () ∧ v' p = v p := h
        refine ⟨h.1, ?_⟩
        have lost : ∀ p, n ≤ p → v' p = 0 ∨ v' p = v p := fun p hp => (h.2 p hp).imp_right (·.2)
        cases r with
        | ok u =>
          refine .inl ⟨rfl, fun p hp => ?_⟩
          rcases h.2 p hp with h | ⟨h, -⟩
          · exact h
          · exact absurd rfl h
        | err => exact .inr ⟨.inl rfl, lost⟩
        | panic => exact .inr ⟨.inl rfl, lost⟩
        | crash => exact .inr ⟨.inr rfl, lost⟩
  · rw [if_neg hs]
    cases a with
    | file x => have h : if e = d ∧ g = f then _ else _ := h; rw [if_neg hs] at h; exact h
    | _ => exact h

/-- The answer of a deletion. -/
theorem delete_ans (e g : Name) (evs : List Ev) (a : Ans) {v v' : Contents} (h : FsExplains d f v (.deleteFile e g evs) a v') :
    VExplains d f v (.delete e g evs) (.ofAns (fun _ => .ioerr) (fun _ => .unit) a) v' := by
  have h : if e = d ∧ g = f then _ else _ := h
  show if e = d ∧ g = f then _ else _
  by_cases hs : e = d ∧ g = f
  · rw [if_pos hs] at h ⊢
    rcases h with h | ⟨hr, h⟩
    · exact .inl h
    · refine .inr ⟨?_, h⟩
      cases a with
      | closed => exact .inl rfl
      | file x => exact .inl rfl
      | unit r => cases r <;> first | exact .inl rfl | exact .inr rfl
      | bool r =>
        cases r with
        | ok r => exact absurd rfl (hr r)
        | err => exact .inl rfl
        | panic => exact .inl rfl
        | crash => exact .inr rfl
  · rw [if_neg hs] at h ⊢
    exact h

/-- A read that is answered with bytes: the length was told, and the read of the file gave them. -/
theorem vread_bytes {e g : Name} {start n : Nat} {evs : List Ev} {bs : Bytes} (h : vread s e g start n evs = .bytes bs) :
    ∃ len data, (s.step (.call e g .length)).1 = .file (.num len) ∧ start + n < 2 ^ 64 ∧
      ((s.step (.call e g .length)).2.step (.call e g (.read start (min len (start + n)) evs))).1 = .file (.bytes (.ok data)) ∧
      bs = data.take (min len (start + n) - start) ∧ bs.length = min len (start + n) - start := by
  unfold vread at h
  split at h
  · rename_i len s' hl
    split at h
    · rename_i hn
      dsimp only at h
      rw [hl]
      match ha : (s'.step (.call e g (.read start (min len (start + n)) evs))).1 with
      | .closed => rw [ha] at h; cases h
      | .unit r => rw [ha] at h; cases h
      | .bool r => rw [ha] at h; cases h
      | .file .opened => rw [ha] at h; cases h
      | .file .closed => rw [ha] at h; cases h
      | .file (.num k) => rw [ha] at h; cases h
      | .file (.done r) => rw [ha] at h; cases r <;> cases h
      | .file (.bytes .err) => rw [ha] at h; cases h
      | .file (.bytes .panic) => rw [ha] at h; cases h
      | .file (.bytes .crash) => rw [ha] at h; cases h
      | .file (.bytes (.ok data)) =>
        rw [ha] at h
        have h : (if min len (start + n) - start ≤ data.length ∧ min len (start + n) - start ≤ n then VAns.bytes (data.take (min len (start + n) - start)) else .panic) = .bytes bs := h
        split at h
        · rename_i hle
          injection h with h
          refine ⟨len, data, rfl, hn, ha, h.symm, ?_⟩
          rw [← h, List.length_take]
          omega
        · cases h
    · cases h
  · cases h

theorem vread_cmds {e g : Name} {start n : Nat} {evs : List Ev} {len : Nat} (hl : (s.step (.call e g .length)).1 = .file (.num len)) (hn : start + n < 2 ^ 64) :
    (VCmd.read e g start n evs).cmds s = [.call e g .length, .call e g (.read start (min len (start + n)) evs)] := by
  show _ :: (match (s.step (.call e g .length)).1 with | .file (.num len) => _ | _ => _) = _
  rw [hl]
  dsimp only
  rw [if_pos hn]

/-- A read of any file changes no contents. -/
theorem read_keeps {e g : Name} (hg : Plain g) (hf : Plain f) (hs : Sep s) (h : Sim d f b s w) (hgd : Good w) (start stop : Nat) (evs : List Ev) :
    ∃ b' w', Sim d f b' (s.step (.call e g (.read start stop evs))).2 w' ∧ Good w' ∧ w'.bytes = w.bytes ∧
      ∀ data, (s.step (.call e g (.read start stop evs))).1 = .file (.bytes (.ok data)) → e = d ∧ g = f → Shows w.bytes start data := by
  obtain ⟨b', w', h', t⟩ := sim_step hs h (c := .call e g (.read start stop evs)) ⟨hg, by simp⟩ (fun evs => by simp)
  obtain ⟨hg', he⟩ := trans_good (plain_noQ hf) h.name hgd t
  refine ⟨b', w', h', hg', ?_, fun data hdata hs => ?_⟩
  · revert he
    cases (s.step (.call e g (.read start stop evs))).1 with
    | closed => exact id
    | unit _ => exact id
    | bool _ => exact id
    | file x =>
      intro he
      have he : if e = d ∧ g = f then _ else _ := he
      split at he
      · revert he
        cases x with
        | bytes r =>
          cases r with
          | ok bs => exact fun he => he.1
          | _ => exact id
        | _ => exact id
      · exact he
  · rw [hdata] at he
    have he : if e = d ∧ g = f then _ else _ := he
    rw [if_pos hs] at he
    exact he.2.2

/-- One call of SQLite: what it does to the contents of a file. -/
theorem vstep_spec (hf : Plain f) (hs : Sep s) (h : Sim d f b s w) (hgd : Good w) {c : VCmd} (hok : VCmdOk c) (hk : VKeepsDir d c) :
    ∃ b' w', Sim d f b' (vstep s c).2 w' ∧ Good w' ∧ VExplains d f w.bytes c (vstep s c).1 w'.bytes := by
  have one : ∀ x, CmdOk x → KeepsDir d x → ∃ b' w', Sim d f b' (s.step x).2 w' ∧ Good w' ∧ FsExplains d f w.bytes x (s.step x).1 w'.bytes := by
    intro x h1 h2
    obtain ⟨b', w', h', t⟩ := sim_step hs h h1 h2
    obtain ⟨hg', he⟩ := trans_good (plain_noQ hf) h.name hgd t
    exact ⟨b', w', h', hg', he⟩
  cases c with
  | other c => exact one c hok fun evs e => hk evs (by rw [e])
  | «open» e g evs =>
    obtain ⟨b', w', h1, h2, h3⟩ := one (.openFile e g evs) hok fun evs => by simp
    exact ⟨b', w', h1, h2, h3⟩
  | delete e g evs =>
    obtain ⟨b', w', h1, h2, h3⟩ := one (.deleteFile e g evs) hok fun evs => by simp
    exact ⟨b', w', h1, h2, delete_ans e g evs _ h3⟩
  | «exists» e g evs =>
    obtain ⟨b', w', h1, h2, h3⟩ := one (.fileExists e g evs) hok fun evs => by simp
    refine ⟨b', w', h1, h2, ?_⟩
    have h3 : w'.bytes = w.bytes := h3
    show VExplains d f w.bytes _ (VAns.ofAns (fun _ => .ioerr) .bool (s.step (.fileExists e g evs)).1) _
    match ha : (s.step (.fileExists e g evs)).1 with
    | .closed => exact h3
    | .file _ => exact h3
    | .unit r => cases r <;> exact h3
    | .bool .err => exact h3
    | .bool .panic => exact h3
    | .bool .crash => exact h3
    | .bool (.ok r) =>
      refine ⟨h3, fun hh => ?_⟩
      obtain ⟨rfl, rfl, rfl⟩ := hh
      have hr := (exists_answer h ha).2.2.symm
      rw [Bool.or_eq_false_iff] at hr
      have h3 : chunksOf w.cache g = [] := by simpa using hr.2
      have hnil := hgd.nil (by rw [h.name]; exact h3)
      funext p
      show w.bytes p = 0
      have : w.bytes = (⟨[], w.name, none⟩ : World).bytes := by unfold World.bytes; rw [hnil]
      rw [this, h.name]
      exact congrFun (winv_fresh (cache := []) (plain_noQ hf) fun e he => by cases he).2 p
  | read e g start n evs =>
    obtain ⟨b1, w1, h1, rfl, rfl⟩ := length_keeps hs hf hok h hgd (e := e)
    show ∃ b' w', Sim d f b' (s.run ((VCmd.read e g start n evs).cmds s)) w' ∧ Good w' ∧ VExplains d f w1.bytes _ (vread s e g start n evs) w'.bytes
    by_cases hl : ∃ len, (s.step (.call e g .length)).1 = .file (.num len) ∧ start + n < 2 ^ 64
    · obtain ⟨len, hl, hn⟩ := hl
      rw [vread_cmds hl hn]
      obtain ⟨b', w', h2, hg2, hb, hsh⟩ := read_keeps hok hf (hs.step _) h1 hgd start (min len (start + n)) evs (e := e)
      refine ⟨b', w', h2, hg2, ?_⟩
      match hv : vread s e g start n evs with
      | .bytes bs =>
        obtain ⟨len', data, hl', -, hd, hbs, hlen⟩ := vread_bytes hv
        rw [hl] at hl'
        injection hl' with hl'; injection hl' with hl'
        subst hl'
        refine ⟨hb, by omega, fun hh => ?_⟩
        have := hsh data hd hh
        intro i hi
        rw [hbs, List.length_take] at hi
        rw [hbs, List.getElem?_take, if_pos (by omega)]
        exact this i (by omega)
      | .other _ => exact hb
      | .unit => exact hb
      | .bool _ => exact hb
      | .num _ => exact hb
      | .ioerr => exact hb
      | .panic => exact hb
      | .gone => exact hb
    · have hc : (VCmd.read e g start n evs).cmds s = [.call e g .length] := by
        show _ :: (match (s.step (.call e g .length)).1 with | .file (.num len) => _ | _ => _) = _
        split
        · rename_i len hl'
          rw [if_neg fun hn => hl ⟨len, hl', hn⟩]
        · rfl
      rw [hc]
      refine ⟨b1, w1, h1, hgd, ?_⟩
      match hv : vread s e g start n evs with
      | .bytes bs =>
        obtain ⟨len, data, hl', hn, -⟩ := vread_bytes hv
        exact absurd ⟨len, hl', hn⟩ hl
      | .other _ => rfl
      | .unit => rfl
      | .bool _ => rfl
      | .num _ => rfl
      | .ioerr => rfl
      | .panic => rfl
      | .gone => rfl
  | write e g o buf evs =>
    obtain ⟨b', w', h1, h2, h3⟩ := one (.call e g (.write o buf evs)) ⟨hok, by simp⟩ fun evs => by simp
    exact ⟨b', w', h1, h2, write_ans e g o buf evs _ h3⟩
  | fileSize e g =>
    obtain ⟨b1, w1, h1, rfl, rfl⟩ := length_keeps hs hf hok h hgd (e := e)
    exact ⟨b1, w1, h1, hgd, rfl⟩
  | truncate e g n evs =>
    obtain ⟨b', w', h1, h2, h3⟩ := one (.call e g (.truncate n evs)) ⟨hok, by simp⟩ fun evs => by simp
    exact ⟨b', w', h1, h2, truncate_ans e g n evs _ h3⟩
  | sync e g =>
    obtain ⟨b', w', h1, h2, h3⟩ := one (.sync e g) hok fun evs => by simp
    exact ⟨b', w', h1, h2, h3⟩

theorem Sep.vstep (hs : Sep s) (c : VCmd) : Sep (Browser.vstep s c).2 := hs.run _

theorem vrun_spec (hf : Plain f) : ∀ (cs : List VCmd) {s : Fs} {b : Bool} {w : World}, Sep s → Sim d f b s w → Good w → (∀ c ∈ cs, VCmdOk c ∧ VKeepsDir d c) →
    ∃ b' w', Sim d f b' (vrun s cs) w' ∧ Good w' ∧ VPossible d f w.bytes (vlog s cs) w'.bytes
  | [], s, b, w, _, h, hg, _ => ⟨b, w, h, hg, rfl⟩
  | c :: cs, s, b, w, hsep, h, hg, hc => by
    obtain ⟨b', w', h1, h2, h3⟩ := vstep_spec hf hsep h hg (hc c (by simp)).1 (hc c (by simp)).2
    obtain ⟨b'', w'', h4, h5, h6⟩ := vrun_spec hf cs (hsep.vstep c) h1 h2 fun c hc' => hc c (by simp [hc'])
    exact ⟨b'', w'', h4, h5, w'.bytes, h3, h6⟩

end Radix.Browser
