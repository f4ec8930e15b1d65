import Verif.Proofs.BrowserChanges
import Verif.Proofs.BrowserAppend
import Verif.Proofs.BrowserSize
import Verif.Spec.Elsewhere

/-
Helper lemmas: a blob in a file that is also written to and truncated.
-/

set_option linter.unusedVariables false

namespace Radix.Browser

open Radix.Spec

theorem filter_one {α : Type} {P : α → Bool} {c : α} : ∀ {l : List α}, l.Nodup → c ∈ l → (∀ x ∈ l, P x = true ↔ x = c) → l.filter P = [c]
  | [], hn, hc, h => absurd hc (by simp)
  | a :: l, hn, hc, h => by
    obtain ⟨h1, h2⟩ := List.nodup_cons.1 hn
    rcases List.mem_cons.1 hc with rfl | hc
    · rw [List.filter_cons, if_pos ((h c (by simp)).2 rfl), List.filter_eq_nil_iff.2]
      intro x hx hp
      rw [(h x (by simp [hx])).1 hp] at hx
      exact h1 hx
    · rw [List.filter_cons, if_neg, filter_one h2 hc fun x hx => h x (by simp [hx])]
      intro hp
      rw [(h a (by simp)).1 hp] at h1
      exact h1 hc

theorem nodup_sorted : ∀ {cs : List Chunk}, Sorted cs → cs.Nodup
  | [], h => List.nodup_nil
  | c :: cs, h => by
    obtain ⟨h1, h2⟩ := List.pairwise_cons.1 h
    exact List.nodup_cons.2 ⟨fun hc => lt_irrefl (h1 c hc), nodup_sorted h2⟩

/-- `get` of a record that is a chunk with which no other meets. -/
theorem get_chunk {w : File} {c : Chunk} {d : Bytes} (h : Inv w) (hm : c ∈ w.chunks) (hlen : c.len = (record d).length)
    (hmeet : ∀ x ∈ w.chunks, x ≠ c → x.offset + x.len ≤ c.offset ∨ c.offset + c.len ≤ x.offset) (hdat : dat w.name w.cache c = record d) (hd : d.length < 2 ^ 32) :
    ∃ evs' r, (Calm w.evs → Calm evs') ∧ loadPrefixed c.offset w = (r, { w with evs := evs' }) ∧
      (r = .ok d ∨ (∀ bs, r ≠ .ok bs) ∧ (¬ Calm w.evs ∨ ¬ c.offset + c.len < 2 ^ 31)) := by
  have hv := h.valid c hm
  have hrl := record_length d
  have hcv : c.offset + c.len < 2 ^ 64 := hv.2
  obtain ⟨lv, s, n⟩ := c
  dsimp only at hlen hmeet hcv ⊢
  subst hlen
  have hcs : intersecting w.chunks (s, s + 4) = [⟨lv, s, (record d).length⟩] := by
    unfold intersecting
    refine filter_one (nodup_sorted (by rw [h.2]; exact sorted_chunksOf _ _)) hm fun x hx => ?_
    rw [overlap_iff]
    dsimp only [Chunk.range]
    constructor
    · intro ho
      by_cases hxc : x = ⟨lv, s, (record d).length⟩
      · exact hxc
      · have := hmeet x hx hxc; omega
    · rintro rfl
      dsimp only
      omega
  unfold loadPrefixed
  rw [if_pos (by omega)]
  dsimp only
  rw [bind_ok (x := self) rfl, hcs]
  change ∃ evs' r, _ ∧ (loadChunks (s, s + (record d).length) [⟨lv, s, (record d).length⟩] >>= _) w = _ ∧ _
  unfold loadChunks buffer
  dsimp only
  have hlen : s + (record d).length - s = (record d).length := by omega
  rw [hlen]
  by_cases h1 : (record d).length < 2 ^ 32
  case neg =>
    rw [toUsize_err (by omega), out_bind_err]
    refine ⟨w.evs, .err, fun h => h, ?_, Or.inr ⟨by simp, Or.inr (by omega)⟩⟩
    rw [bind_err (w' := w)]
    rw [bind_err (x := lift _) rfl]
  rw [toUsize_ok (by omega), out_bind_ok, show ((record d).length : Int).toNat = (record d).length from by omega]
  by_cases h2 : (record d).length < 2 ^ 31
  case neg =>
    rw [if_neg h2]
    refine ⟨w.evs, .panic, fun h => h, ?_, Or.inr ⟨by simp, Or.inr (by omega)⟩⟩
    rw [bind_panic (w' := w)]
    rw [bind_panic (x := lift _) rfl]
  rw [if_pos h2]
  obtain ⟨evs', hq, hr⟩ := fill_spec (a := s) (b := s + (record d).length) (by omega) (by omega) [⟨lv, s, (record d).length⟩] h
    (fun _ => 0) (fun c hc => by
      rw [List.mem_singleton.1 hc]
      refine ⟨hm, overlap_iff.2 ?_⟩
      dsimp only [Chunk.range]
      omega)
  rw [← tab_zero, hlen] at hr
  refine ⟨evs', ?_⟩
  rcases hr with e | ⟨hn, e⟩ | ⟨hn, e⟩
  · have hres : tab s (record d).length (fun p => viewFrom (dat w.name w.cache) p 0 [⟨lv, s, (record d).length⟩]) = record d := by
      refine tab_of fun i hi => ?_
      show (if Covers ⟨lv, s, (record d).length⟩ (s + i) then (dat w.name w.cache ⟨lv, s, (record d).length⟩).getD (s + i - s) 0 else 0) = _
      rw [if_pos ⟨by dsimp only; omega, by dsimp only; omega⟩, hdat, show s + i - s = i from by omega]
    rw [hres] at e
    rw [bind_ok (w' := { w with evs := evs' }) (a := record d) (by rw [bind_ok (x := lift _) rfl]; exact e)]
    have htake : (record d).take 4 = toBE 4 d.length := by
      unfold record
      rw [List.take_append_of_le_length (by simp [toBE_length]), List.take_of_length_le (by simp [toBE_length])]
    have hdrop : (record d).drop 4 = d := by
      unfold record
      rw [List.drop_append_of_le_length (by simp [toBE_length]), List.drop_of_length_le (by simp [toBE_length]), List.nil_append]
    rw [if_neg (by omega), htake, ofBE_toBE_lt (by omega), if_pos (by omega),
      bind_ok (a := ()) (w' := { w with evs := evs' }) (by simp [ensure, lift]; omega), hdrop, List.take_length]
    exact ⟨.ok d, hq, rfl, Or.inl rfl⟩
  · refine ⟨.err, hq, ?_, Or.inr ⟨by simp, hn.imp_right fun hn hlt => hn ⟨fun c hc => ?_, by omega⟩⟩⟩
    · rw [bind_err (w' := { w with evs := evs' })]
      rw [bind_ok (x := lift _) rfl]; exact e
    · rw [List.mem_singleton.1 hc]
      dsimp only
      omega
  · refine ⟨.crash, hq, ?_, Or.inr ⟨by simp, Or.inl hn⟩⟩
    rw [bind_crash (w' := { w with evs := evs' })]
    rw [bind_ok (x := lift _) rfl]; exact e

/-- The record of `d` is at `s`, in a piece of its own. -/
structure Kept (w : World) (ps : List Piece) (s : Nat) (d : Bytes) : Prop where
  pieces : AsPieces (chunksOf w.cache w.name) ps
  meet : NoneMeet ps
  piece : ∃ l, (⟨l, s, 4 + d.length⟩ : Piece) ∈ ps
  bytes : ∀ i, i < (record d).length → w.bytes (s + i) = (record d).getD i 0

/-- What `put` returns if it returns `Ok`. -/
theorem step_put {w : World} {ps : List Piece} (h : WInv w) (he : AsPieces (chunksOf w.cache w.name) ps) (hd : NoneMeet ps) {d id : Bytes} {evs : List Ev}
    (hs : (step w (.put d evs)).1 = .bytes (.ok id)) : ofBE id = topEnd ps ∧ id = toBE 8 (topEnd ps) ∧ topEnd ps < 2 ^ 64 ∧ d.length < 2 ^ 32 := by
  unfold step at hs
  cases hh : w.handle with
  | none => rw [hh] at hs; exact absurd hs (by simp)
  | some cs =>
    rw [hh] at hs
    dsimp only at hs
    have hi := h.file hh evs
    have hcs : cs = chunksOf w.cache w.name := hi.2
    rw [← hcs] at he
    have hl := length_pieces hi he hd
    have hlt := length_lt hi
    rcases hw : appendPrefixed d ⟨w.cache, w.name, cs, evs⟩ with ⟨r, w'⟩
    rw [hw] at hs
    obtain ⟨o, hr, ho⟩ := map_ok (Seen.bytes.inj hs)
    dsimp only at hr
    subst hr
    have h1 := (put_pieces hi he hd hw).1
    rw [hl] at hlt
    refine ⟨?_, ?_, hlt, ?_⟩
    · rw [← ho, h1, ofBE_toBE_lt (by omega)]
    · rw [← ho, h1]
    · unfold appendPrefixed at hw
      split at hw
      · assumption
      · exact absurd (Prod.mk.inj hw).1 (by simp)

theorem elsewhere_bytes {v : Contents} {s o : Nat} {data : Bytes} {n : Nat} (h : o + data.length ≤ s ∨ s + n ≤ o) {i : Nat} (hi : i < n) : overwrite v o data (s + i) = v (s + i) := by
  unfold overwrite
  rw [if_neg (by omega)]

theorem elsewhere_stack {ps : List Piece} {p : Piece} {o n : Nat} (hp : p ∈ ps) (h : o + n ≤ p.offset ∨ p.offset + p.len ≤ o) : p ∈ stack ps (o, n) :=
  mem_stack.2 (Or.inr (Or.inl ⟨hp, by rw [hit_iff]; dsimp only; omega⟩))

theorem Kept.step {w : World} {ps : List Piece} {s : Nat} {d : Bytes} (h : WInv w) (k : Kept w ps s d) {c : Call} (hok : ChangesOk [(c, (step w c).1)])
    (he : Elsewhere s (s + (record d).length) (c, (Browser.step w c).1)) : Kept (Browser.step w c).2 ((changesOf [c]).foldl change ps) s d := by
  obtain ⟨h1, h2, h3, -⟩ := step_spec h c
  obtain ⟨k1, k2, k3⟩ := hok (c, (Browser.step w c).1) (by simp)
  have hrl := record_length d
  obtain ⟨l, hl⟩ := k.piece
  refine ⟨by rw [h3]; exact step_changes h k.pieces k.meet hok, disjoint_changes _ k.meet, ⟨l, ?_⟩, ?_⟩
  · cases c with
    | write o data evs => exact elsewhere_stack hl (by unfold Elsewhere at he; dsimp only at he ⊢; omega)
    | truncate n evs =>
      refine mem_cutAt.2 (Or.inr ⟨hl, ?_⟩)
      unfold Elsewhere at he; dsimp only at he ⊢; omega
    | put data evs =>
      obtain ⟨id, hid⟩ := k3 data evs rfl
      have hp := step_put h k.pieces k.meet hid
      have he' := he id hid
      rw [hp.1, record_length] at he'
      exact elsewhere_stack hl (by dsimp only; omega)
    | reopen => exact hl
    | length => exact hl
    | read a b evs => exact hl
    | get id evs => exact hl
  · intro i hi
    rw [← k.bytes i hi]
    cases c with
    | write o data evs =>
      have hd := k1 o data evs rfl
      dsimp only at hd
      rw [hd] at h1
      rcases h1 with h1 | ⟨h1, -⟩
      · rw [h1]; exact elsewhere_bytes he hi
      · exact absurd rfl h1
    | truncate n evs =>
      have hd := k2 n evs rfl
      dsimp only at hd
      rw [hd] at h1
      have he : s + (record d).length ≤ n := he
      exact h1.1 _ (by omega)
    | put data evs =>
      obtain ⟨id, hid⟩ := k3 data evs rfl
      have he' := he id hid
      dsimp only at hid
      rw [hid] at h1
      rw [h1.2]
      exact elsewhere_bytes he' hi
    | reopen => exact congrFun h1 _
    | length => exact congrFun h1 _
    | read a b evs =>
      generalize hs : Browser.step w (.read a b evs) = r at h1 ⊢
      obtain ⟨s1, s2⟩ := r
      cases s1 with
      | bytes x =>
        cases x with
        | ok bs => exact congrFun h1.1 _
        | err => exact congrFun h1 _
        | panic => exact congrFun h1 _
        | crash => exact congrFun h1 _
      | opened => exact congrFun h1 _
      | done x => exact congrFun h1 _
      | num x => exact congrFun h1 _
      | closed => exact congrFun h1 _
    | get id evs => exact congrFun h1 _

theorem kept_run {s : Nat} {d : Bytes} : ∀ (cs : List Call) {w : World} {ps : List Piece}, WInv w → Kept w ps s d → ChangesOk (log w cs) →
    (∀ e ∈ log w cs, Elsewhere s (s + (record d).length) e) → Kept (run w cs) ((changesOf cs).foldl change ps) s d
  | [], w, ps, h, k, hok, he => k
  | c :: cs, w, ps, h, k, hok, he => by
    have ec : changesOf (c :: cs) = changesOf [c] ++ changesOf cs := changesOf_append [c] cs
    rw [ec, List.foldl_append]
    refine kept_run cs (step_spec h c).2.1 (k.step h (c := c) (fun e he => ?_) (he _ (by simp [log]))) (fun e he => hok e (by unfold log; exact List.mem_cons_of_mem _ he))
      fun e h => he e (by unfold log; exact List.mem_cons_of_mem _ h)
    rw [List.mem_singleton.1 he]
    exact hok (c, (Browser.step w c).1) (by simp [log])

/-- A blob that was just put. -/
theorem kept_put {w : World} {ps : List Piece} (h : WInv w) (he : AsPieces (chunksOf w.cache w.name) ps) (hd : NoneMeet ps) {d id : Bytes} {evs : List Ev}
    (hs : (step w (.put d evs)).1 = .bytes (.ok id)) : Kept (step w (.put d evs)).2 (change ps (.append (4 + d.length))) (ofBE id) d := by
  obtain ⟨h1, h2, h3, -⟩ := step_spec h (.put d evs)
  obtain ⟨p1, p2, p3, p4⟩ := step_put h he hd hs
  have hok : ChangesOk [(.put d evs, (step w (.put d evs)).1)] := by
    intro e he
    rw [List.mem_singleton.1 he]
    refine ⟨fun o d evs h => (by cases h), fun n evs h => (by cases h), fun d' evs' h => ⟨id, hs⟩⟩
  refine ⟨by rw [h3]; exact step_changes h he hd hok, disjoint_change hd _, ⟨levelFor ps (topEnd ps, 4 + d.length), ?_⟩, fun i hi => ?_⟩
  · rw [p1]; exact mem_stack.2 (Or.inl rfl)
  · rw [hs] at h1
    rw [h1.2]
    unfold overwrite
    rw [if_pos (by omega), show ofBE id + i - ofBE id = i from by omega]

/-- Such a blob is what `get` returns. -/
theorem Kept.get {w : World} {ps : List Piece} {s : Nat} {d : Bytes} (h : WInv w) (k : Kept w ps s d) (hd : d.length < 2 ^ 32) {cs : List Chunk} (hh : w.handle = some cs)
    (evs : List Ev) : ∃ evs' r, (Calm evs → Calm evs') ∧ loadPrefixed s ⟨w.cache, w.name, cs, evs⟩ = (r, ⟨w.cache, w.name, cs, evs'⟩) ∧
      (r = .ok d ∨ (∀ bs, r ≠ .ok bs) ∧ (¬ Calm evs ∨ ¬ ∀ c ∈ chunksOf w.cache w.name, c.offset + c.len < 2 ^ 31)) := by
  have hi := h.file hh evs
  have hcs : cs = chunksOf w.cache w.name := hi.2
  obtain ⟨l, hl⟩ := k.piece
  obtain ⟨c, hc, hcp⟩ := (k.pieces _).1 hl
  have hrl := record_length d
  have c2 : c.offset = s := congrArg Piece.offset hcp
  have c3 : c.len = 4 + d.length := congrArg Piece.len hcp
  have hmeet : ∀ x ∈ cs, x ≠ c → x.offset + x.len ≤ c.offset ∨ c.offset + c.len ≤ x.offset := by
    intro x hx hxc
    rw [hcs] at hx
    refine k.meet _ ((k.pieces (toPiece x)).2 ⟨x, hx, rfl⟩) _ ((k.pieces (toPiece c)).2 ⟨c, hc, rfl⟩) fun e => hxc ?_
    obtain ⟨x1, x2, x3⟩ := x
    obtain ⟨y1, y2, y3⟩ := c
    unfold toPiece at e
    injection e with e1 e2 e3
    dsimp only at e1 e2 e3
    subst e1 e2 e3
    rfl
  have hdat : dat w.name w.cache c = record d := by
    have hl2 := (hi.1.chunk hc).2.2
    have hl2 : (dat w.name w.cache c).length = c.len := hl2
    refine List.ext_getElem (by omega) fun i h1 h2 => ?_
    have hb := k.bytes i h2
    have hv : w.bytes (s + i) = (dat w.name w.cache c).getD (s + i - c.offset) 0 := by
      refine view_top (sorted_chunksOf _ _) ⟨hc, ⟨by omega, by omega⟩, fun x hx hxc => Or.inl ?_⟩
      by_cases hxe : x = c
      · exact hxe
      · have := hmeet x (by rw [hcs]; exact hx) hxe
        unfold Covers at hxc
        omega
    rw [hb, show s + i - c.offset = i from by omega, List.getD_eq_getElem?_getD, List.getD_eq_getElem?_getD, List.getElem?_eq_getElem h1, List.getElem?_eq_getElem h2] at hv
    exact hv.symm
  obtain ⟨evs', r, hq, e, hr⟩ := get_chunk (w := ⟨w.cache, w.name, cs, evs⟩) hi (c := c) (by show c ∈ cs; rw [hcs]; exact hc) (by omega) hmeet hdat hd
  rw [c2] at e
  refine ⟨evs', r, hq, e, hr.imp_right fun ⟨h1, h2⟩ => ⟨h1, h2.imp_right fun h2 h3 => h2 (h3 c hc)⟩⟩

/-- Blobs that are put into a file with all pieces on level 0 go behind all that is there. -/
theorem puts_elsewhere {start stop : Nat} : ∀ (cs : List Call) {w : World} {ps : List Piece} {m : Nat} {ms : List Nat}, WInv w → AsPieces (chunksOf w.cache w.name) ps → NoneMeet ps →
    FlatPieces ps m → stop ≤ m → changesOf cs = ms.map .append → ChangesOk (log w cs) → ∀ e ∈ log w cs, Elsewhere start stop e
  | [], w, ps, m, ms, h, hs, hd, hf, hm, hc, hok => fun e he => absurd he (by simp [log])
  | c :: cs, w, ps, m, ms, h, hs, hd, hf, hm, hc, hok => by
    have h1 : ChangesOk [(c, (step w c).1)] := fun e he => by
      rw [List.mem_singleton.1 he]
      exact hok (c, (step w c).1) (by simp [log])
    have h2 : ChangesOk (log (step w c).2 cs) := fun e he => hok e (by unfold log; exact List.mem_cons_of_mem _ he)
    obtain ⟨-, s2, s3, -⟩ := step_spec h c
    have hp := step_changes h hs hd h1
    rw [← s3] at hp
    have hn := disjoint_changes (changesOf [c]) hd
    intro e he
    unfold log at he
    have same : changesOf (c :: cs) = changesOf cs → changesOf [c] = [] → Elsewhere start stop (c, (step w c).1) → Elsewhere start stop e := by
      intro e1 e2 e3
      rw [e2] at hp
      rcases List.mem_cons.1 he with rfl | he
      · exact e3
      · exact puts_elsewhere cs s2 hp hd hf hm (by rw [← hc, e1]) h2 e he
    cases c with
    | write o d evs => cases ms <;> cases hc
    | truncate n evs => cases ms <;> cases hc
    | put d evs =>
      cases ms with
      | nil => cases hc
      | cons l ms =>
        injection hc with hl hc
        injection hl with hl
        rcases List.mem_cons.1 he with rfl | he
        · intro id hid
          rw [(step_put h hs hd hid).1, hf.2]
          exact Or.inr hm
        · exact puts_elsewhere cs s2 hp hn (flat_appends [4 + d.length] hf) (by omega) hc h2 e he
    | reopen => exact same rfl rfl trivial
    | length => exact same rfl rfl trivial
    | read a b evs => exact same rfl rfl trivial
    | get id evs => exact same rfl rfl trivial

theorem flat_nil : FlatPieces [] 0 := ⟨fun p hp => absurd hp (by simp), rfl⟩

theorem map_append_split {x y : List Change} {ls : List Nat} (h : x ++ y = ls.map .append) : ∃ a b, ls = a ++ b ∧ x = a.map .append ∧ y = b.map .append := by
  obtain ⟨a, b, h1, h2, h3⟩ := List.map_eq_append_iff.1 h.symm
  exact ⟨a, b, h1, h2.symm, h3.symm⟩

end Radix.Browser
