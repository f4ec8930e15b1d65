import Verif.Proofs.BrowserHistory

/-
Helper lemmas: how large offsets and levels get, and that calls succeed when they are small and the browser does not fail.
-/

set_option linter.unusedVariables false

namespace Radix.Browser

open Radix.Spec (overwrite cut Shows Explains Possible record Contents nothing Unused reach)

theorem effects_pred {name : Name} {P : Chunk → Prop} : ∀ {ops : List Op} {cache : Cache} (h : CInv name cache) (ho : ∀ op ∈ ops, OpOk op)
    (hc : ∀ c ∈ chunksOf cache name, P c) (hr : ∀ c, .rewrite c ∈ ops → P c) (hw : ∀ c d, .write c d ∈ ops → P c),
    ∀ c ∈ chunksOf (effects name cache ops) name, P c
  | [], cache, h, ho, hc, hr, hw => hc
  | op :: ops, cache, h, ho, hc, hr, hw => by
    have h1 := ho op (by simp)
    show ∀ c ∈ chunksOf (effects name (effect name cache op) ops) name, P c
    refine effects_pred (h.effect h1) (fun x hx => ho x (by simp [hx])) ?_ (fun c hc => hr c (by simp [hc])) fun c d hc => hw c d (by simp [hc])
    intro c hcm
    cases op with
    | delete x =>
      have hcm : c ∈ chunksOf (cache.del (x.request name)) name := hcm
      rw [chunksOf_del h h1] at hcm
      exact hc c (mem_remove.1 hcm).1
    | write x d =>
      have hcm : c ∈ chunksOf (cache.set (x.request name) d) name := hcm
      rw [chunksOf_set h h1.1] at hcm
      rcases mem_insert.1 hcm with rfl | hcm
      · exact hw c d (by simp)
      · exact hc c hcm
    | rewrite x =>
      have hcm : c ∈ chunksOf (cache.set (x.request name) _) name := hcm
      have h1 : x.Valid := h1
      rw [chunksOf_set h h1] at hcm
      rcases mem_insert.1 hcm with rfl | hcm
      · exact hr c (by simp)
      · exact hc c hcm

theorem exec_pred {P : Chunk → Prop} {ops : List Op} {w : File} (h : Inv w) (ho : ∀ op ∈ ops, OpOk op)
    (hc : ∀ c ∈ w.chunks, P c) (hr : ∀ c, .rewrite c ∈ ops → P c) (hw : ∀ c d, .write c d ∈ ops → P c) :
    ∀ c ∈ chunksOf (exec ops w).2.cache w.name, P c := by
  obtain ⟨cache', chunks', evs', r, k, -, ex, -, hc', -, -⟩ := exec_spec ops h ho
  rw [ex]
  dsimp only
  rw [hc']
  exact effects_pred h.1 (fun op hop => ho op (List.mem_of_mem_take hop)) (by rw [← h.2]; exact hc)
    (fun c hm => hr c (List.mem_of_mem_take hm)) fun c d hm => hw c d (List.mem_of_mem_take hm)

/-- All ends are at most `E`, all levels below `L`. -/
def Within (cs : List Chunk) (E L : Nat) : Prop := ∀ c ∈ cs, c.offset + c.len ≤ E ∧ c.level < L

theorem Within.mono {cs : List Chunk} {E E' L L' : Nat} (h : Within cs E L) (h1 : E ≤ E') (h2 : L ≤ L') : Within cs E' L' := fun c hc => by
  have := h c hc; omega

theorem within_plan {w : File} {E L offset : Nat} {data : Bytes} (h : Inv w) (hb : Within w.chunks E L) :
    ((∃ l ops, add w.chunks offset data = .ok (.write ⟨l, offset, data.length⟩ data :: ops) ∧
      (∀ op ∈ Op.write ⟨l, offset, data.length⟩ data :: ops, OpOk op) ∧
      (∀ c, .rewrite c ∈ Op.write ⟨l, offset, data.length⟩ data :: ops → c.offset + c.len ≤ max E (offset + data.length) ∧ c.level < L + 1) ∧
      (∀ c d, .write c d ∈ Op.write ⟨l, offset, data.length⟩ data :: ops → c = ⟨l, offset, data.length⟩ ∧ c.level < L + 1)) ∨
    add w.chunks offset data = .panic ∧ ¬ (offset + data.length < 2 ^ 64 ∧ L < 2 ^ 64)) := by
  rcases add_spec w.chunks offset data h.valid with ⟨l, ops, e, hok, -, -, hl, hrw, hnw, -⟩ | ⟨e, hn⟩
  · refine Or.inl ⟨l, ops, e, hok, ?_, ?_⟩
    · have hl' : l < L + 1 := by
        rcases hl with rfl | ⟨c, hc, rfl⟩
        · omega
        · have := (hb c (mem_inTheWay.1 hc).1).2; omega
      intro c hc
      rcases List.mem_cons.1 hc with hc | hc
      · exact absurd hc (by simp)
      · obtain ⟨h1, d, hd, h2⟩ := hrw c hc
        have := hb d (mem_inTheWay.1 hd).1
        omega
    · intro c d hc
      rcases List.mem_cons.1 hc with hc | hc
      · obtain ⟨rfl, -⟩ := Op.write.inj hc
        refine ⟨rfl, ?_⟩
        rcases hl with rfl | ⟨x, hx, rfl⟩
        · exact Nat.succ_pos _
        · have := (hb x (mem_inTheWay.1 hx).1).2
          dsimp only; omega
      · exact absurd rfl (hnw _ hc c d)
  · refine Or.inr ⟨e, fun hh => hn ⟨hh.1, fun c hc => ?_⟩⟩
    have := (hb c (mem_inTheWay.1 hc).1).2
    omega

theorem write_within {w : File} {E L offset : Nat} {data : Bytes} (h : Inv w) (hb : Within w.chunks E L) :
    Within (chunksOf (write offset data w).2.cache w.name) (max E (offset + data.length)) (L + 1) := by
  have h0 : Within (chunksOf w.cache w.name) (max E (offset + data.length)) (L + 1) := by rw [← h.2]; exact hb.mono (by omega) (by omega)
  unfold write
  rw [bind_ok (x := self) rfl]
  rcases within_plan (offset := offset) (data := data) h hb with ⟨l, ops, e, hok, h1, h2⟩ | ⟨e, -⟩
  · rw [e, bind_ok (x := lift _) rfl]
    refine exec_pred h hok (hb.mono (by omega) (by omega)) h1 fun c d hc => ?_
    obtain ⟨rfl, h3⟩ := h2 c d hc
    exact ⟨by dsimp only; omega, h3⟩
  · rw [e, bind_panic (x := lift _) rfl]
    exact h0

theorem append_eq (data : Bytes) (w : File) : append data w = (((write (length w) data w).1.map fun _ => length w), (write (length w) data w).2) := by
  unfold append write
  rw [bind_ok (x := self) rfl, bind_ok (x := self) rfl, bind_ok (x := self) rfl]
  have hl : (prev w).range.2 = length w := rfl
  rw [hl]
  match hx : add w.chunks (length w) data with
  | .ok plan =>
    rw [bind_ok (x := lift _) rfl, bind_ok (x := lift _) rfl]
    match hy : exec plan w with
    | (.ok (), w') => rw [bind_ok hy]; rfl
    | (.err, w') => rw [bind_err hy]; rfl
    | (.panic, w') => rw [bind_panic hy]; rfl
    | (.crash, w') => rw [bind_crash hy]; rfl
  | .err => rw [bind_err (x := lift _) rfl, bind_err (x := lift _) rfl]; rfl
  | .panic => rw [bind_panic (x := lift _) rfl, bind_panic (x := lift _) rfl]; rfl
  | .crash => rw [bind_crash (x := lift _) rfl, bind_crash (x := lift _) rfl]; rfl

theorem truncate_within {w : File} {E L n : Nat} (h : Inv w) (hb : Within w.chunks E L) :
    Within (chunksOf (truncate n w).2.cache w.name) E (L + 1) := by
  have h0 : Within (chunksOf w.cache w.name) E (L + 1) := by rw [← h.2]; exact hb.mono (by omega) (by omega)
  unfold truncate
  rw [bind_ok (x := self) rfl]
  rcases truncatePlan_spec w.chunks n h.valid with ⟨first, l, e, hok, hfirst, hlev, hl, -⟩ | ⟨e, -⟩
  · rw [e, bind_ok (x := lift _) rfl]
    have hbv : ∀ c ∈ beyond w.chunks n, c.Valid := fun c hc => h.valid c (mem_beyond.1 hc).1
    refine exec_pred h ?_ (hb.mono (by omega) (by omega)) ?_ ?_
    · intro op hop
      rcases List.mem_append.1 hop with hop | hop
      · exact hok op hop
      · obtain ⟨c, hc, rfl⟩ := List.mem_map.1 hop
        exact hbv c hc
    · intro c hc
      rcases List.mem_append.1 hc with hc | hc
      · rcases hfirst with rfl | ⟨x, rfl, h1, h2, h3, d, hd, -⟩
        · exact absurd hc (by simp)
        · rw [Op.rewrite.inj (List.mem_singleton.1 hc)]
          have hd' := mem_beyond.1 hd
          have hbd := hb d hd'.1
          refine ⟨by omega, ?_⟩
          rw [h3]
          rcases hl with rfl | ⟨y, hy, rfl⟩
          · omega
          · have := hb y (mem_beyond.1 hy).1; omega
      · obtain ⟨x, hx, he⟩ := List.mem_map.1 hc
        exact absurd he (by simp)
    · intro c d hc
      rcases List.mem_append.1 hc with hc | hc
      · rcases hfirst with rfl | ⟨x, rfl, -⟩
        · exact absurd hc (by simp)
        · exact absurd hc (by simp)
      · obtain ⟨x, hx, he⟩ := List.mem_map.1 hc
        exact absurd he (by simp)
  · rw [e, bind_panic (x := lift _) rfl]
    exact h0

theorem cache_after {α : Type} (r : Out α × File) : (after r).cache = r.2.cache := by
  obtain ⟨r, w⟩ := r
  cases r <;> rfl

theorem cache_reader {α : Type} {x : M α} (h : Reader x) (w : File) : (x w).2.cache = w.cache := by
  obtain ⟨evs', e⟩ := h w
  rw [e]

theorem length_le_within {w : File} {E L : Nat} (h : Within w.chunks E L) : length w ≤ E := length_le_of fun c hc => (h c hc).1

theorem step_within {w : World} {E L : Nat} (h : WInv w) (hb : Within (chunksOf w.cache w.name) E L) (c : Call) :
    Within (chunksOf (step w c).2.cache w.name) (reach E [c]) (L + 1) := by
  have h0 : Within (chunksOf w.cache w.name) E (L + 1) := hb.mono (by omega) (by omega)
  have h1 : E ≤ reach E [c] := by cases c <;> simp [reach] <;> omega
  cases c with
  | reopen => exact h0
  | length =>
    unfold step
    cases hh : w.handle <;> exact h0
  | write offset data evs =>
    unfold step
    cases hh : w.handle with
    | none => exact h0.mono h1 (Nat.le_refl _)
    | some cs =>
      dsimp only
      rw [cache_after]
      have hi := h.file hh evs
      exact write_within hi (by rw [hi.2]; exact hb)
  | truncate n evs =>
    unfold step
    cases hh : w.handle with
    | none => exact h0
    | some cs =>
      dsimp only
      rw [cache_after]
      have hi := h.file hh evs
      exact truncate_within hi (by rw [hi.2]; exact hb)
  | read a b evs =>
    unfold step
    cases hh : w.handle with
    | none => exact h0
    | some cs =>
      dsimp only
      rw [cache_after, cache_reader (reader_read _)]
      exact h0
  | put data evs =>
    unfold step
    cases hh : w.handle with
    | none => exact h0.mono h1 (Nat.le_refl _)
    | some cs =>
      dsimp only
      rw [cache_after]
      have hi := h.file hh evs
      have hb' : Within (File.mk w.cache w.name cs evs).chunks E L := by rw [hi.2]; exact hb
      unfold appendPrefixed
      split
      · have := write_within (offset := length ⟨w.cache, w.name, cs, evs⟩) (data := record data) hi hb'
        have hlen := length_le_within hb'
        have e : append (toBE 4 data.length ++ data) ⟨w.cache, w.name, cs, evs⟩ = _ := append_eq (record data) _
        rw [e]
        refine this.mono ?_ (Nat.le_refl _)
        show max E _ ≤ E + (record data).length
        omega
      · exact h0.mono h1 (Nat.le_refl _)
  | get id evs =>
    unfold step
    cases hh : w.handle with
    | none => exact h0
    | some cs =>
      dsimp only
      split
      · dsimp only
        rw [cache_after, cache_reader (reader_loadPrefixed _)]
        exact h0
      · exact h0

theorem reach_cons (E : Nat) (c : Call) (cs : List Call) : reach E (c :: cs) = reach (reach E [c]) cs := by
  cases c <;> rfl

theorem run_within : ∀ (cs : List Call) {w : World} {E L : Nat} (h : WInv w) (hb : Within (chunksOf w.cache w.name) E L),
    Within (chunksOf (run w cs).cache w.name) (reach E cs) (L + cs.length)
  | [], w, E, L, h, hb => hb
  | c :: cs, w, E, L, h, hb => by
    obtain ⟨-, h2, h3, -⟩ := step_spec h c
    have h4 := step_within h hb c
    have := run_within cs h2 (by rw [h3]; exact h4)
    rw [reach_cons]
    rw [h3] at this
    show Within (chunksOf (run (step w c).2 cs).cache w.name) _ _
    rw [List.length_cons, show L + (cs.length + 1) = L + 1 + cs.length from by omega]
    exact this

/-! ### Success -/

theorem Within.small {cs : List Chunk} {E L : Nat} (h : Within cs E L) (hE : E < 2 ^ 31) : SmallChunks cs := fun c hc => by
  have := (h c hc).1; omega

theorem write_succeeds {w : File} {E L offset : Nat} {data : Bytes} (h : Inv w) (hb : Within w.chunks E L) (hq : Calm w.evs)
    (hE : max E (offset + data.length) < 2 ^ 31) (hL : L < 2 ^ 64) : (write offset data w).1 = .ok () := by
  unfold write
  rw [bind_ok (x := self) rfl]
  rcases within_plan (offset := offset) (data := data) h hb with ⟨l, ops, e, hok, h1, h2⟩ | ⟨e, hn⟩
  · rw [e, bind_ok (x := lift _) rfl]
    obtain ⟨w', ex, -⟩ := exec_succeeds _ h hok hq (hb.small (by omega)) fun op hop => by
      refine ⟨?_, fun c d he => ?_⟩
      · cases op with
        | rewrite c => have := (h1 c hop).1; show _ < _; omega
        | delete c => trivial
        | write c d => trivial
      · subst he
        obtain ⟨rfl, -⟩ := h2 c d hop
        dsimp only; omega
    rw [ex]
  · exact absurd ⟨by omega, hL⟩ hn

theorem truncate_succeeds {w : File} {E L n : Nat} (h : Inv w) (hb : Within w.chunks E L) (hq : Calm w.evs) (hE : E < 2 ^ 31)
    (hL : L < 2 ^ 64) : (truncate n w).1 = .ok () := by
  unfold truncate
  rw [bind_ok (x := self) rfl]
  rcases truncatePlan_spec w.chunks n h.valid with ⟨first, l, e, hok, hfirst, hlev, hl, -⟩ | ⟨e, hn⟩
  · rw [e, bind_ok (x := lift _) rfl]
    have hbv : ∀ c ∈ beyond w.chunks n, c.Valid := fun c hc => h.valid c (mem_beyond.1 hc).1
    obtain ⟨w', ex, -⟩ := exec_succeeds (first ++ (beyond w.chunks n).map .delete) h (by
      intro op hop
      rcases List.mem_append.1 hop with hop | hop
      · exact hok op hop
      · obtain ⟨c, hc, rfl⟩ := List.mem_map.1 hop
        exact hbv c hc) hq (hb.small hE) (by
      intro op hop
      rcases List.mem_append.1 hop with hop | hop
      · rcases hfirst with rfl | ⟨x, rfl, h1, h2, h3, d, hd, -⟩
        · exact absurd hop (by simp)
        · rw [List.mem_singleton.1 hop]
          have hd' := mem_beyond.1 hd
          have hbd := hb d hd'.1
          refine ⟨?_, fun c d he => absurd he (by simp)⟩
          show _ < _; omega
      · obtain ⟨x, hx, rfl⟩ := List.mem_map.1 hop
        exact ⟨trivial, fun c d he => absurd he (by simp)⟩)
    rw [ex]
  · refine absurd (fun c hc => ?_) hn
    have := (hb c (mem_beyond.1 hc).1).2
    omega

theorem put_succeeds {w : File} {E L : Nat} {data : Bytes} (h : Inv w) (hb : Within w.chunks E L) (hq : Calm w.evs)
    (hE : E + (record data).length < 2 ^ 31) (hL : L < 2 ^ 64) : (appendPrefixed data w).1 = .ok (length w) := by
  have hr : (record data).length = 4 + data.length := by simp [record, toBE_length]
  have hl := length_le_within hb
  unfold appendPrefixed
  rw [if_pos (by omega)]
  have e : append (toBE 4 data.length ++ data) w = _ := append_eq (record data) w
  rw [e]
  dsimp only
  rw [write_succeeds h hb hq (by omega) hL]
  rfl

end Radix.Browser
