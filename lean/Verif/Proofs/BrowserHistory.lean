import Verif.Proofs.BrowserOps
import Verif.Spec.FileLog

/-
Helper lemmas: histories of calls on one file.
-/

set_option linter.unusedVariables false

namespace Radix.Browser

open Radix.Spec (overwrite cut Shows Explains Possible record Contents nothing Unused)

/-! ### Calls that only read -/

/-- Nothing but the coming events changes. -/
def Reader {α : Type} (x : M α) : Prop := ∀ w, ∃ evs', (x w).2 = { w with evs := evs' }

theorem Reader.bind {α β : Type} {x : M α} {f : α → M β} (h1 : Reader x) (h2 : ∀ a, Reader (f a)) : Reader (x >>= f) := by
  intro w
  obtain ⟨evs1, e1⟩ := h1 w
  match hx : x w with
  | (.ok a, w1) =>
    rw [bind_ok hx]
    rw [hx] at e1
    obtain ⟨evs2, e2⟩ := h2 a w1
    have e1 : w1 = _ := e1
    exact ⟨evs2, by rw [e2, e1]⟩
  | (.err, w1) => rw [bind_err hx]; rw [hx] at e1; exact ⟨evs1, e1⟩
  | (.panic, w1) => rw [bind_panic hx]; rw [hx] at e1; exact ⟨evs1, e1⟩
  | (.crash, w1) => rw [bind_crash hx]; rw [hx] at e1; exact ⟨evs1, e1⟩

theorem reader_pure {α : Type} (a : α) : Reader (pure a : M α) := fun w => ⟨w.evs, rfl⟩

theorem reader_lift {α : Type} (x : Out α) : Reader (lift x) := fun w => ⟨w.evs, rfl⟩

theorem reader_self : Reader self := fun w => ⟨w.evs, rfl⟩

theorem reader_cacheOp : Reader (cacheOp id) := by
  intro w
  obtain ⟨evs', -, h⟩ := cacheOp_cases id w
  refine ⟨evs', ?_⟩
  rcases h with h | ⟨-, h | h | h⟩ <;> rw [h] <;> rfl

theorem reader_loadRange (c : Chunk) (r : Range) : Reader (loadRange c r) := by
  unfold loadRange
  refine reader_cacheOp.bind fun _ => reader_self.bind fun w => ?_
  split
  · exact reader_lift _
  · exact (reader_lift _).bind fun _ => (reader_lift _).bind fun _ => reader_pure _

theorem reader_fill (range : Range) : ∀ (cs : List Chunk) (res : Bytes), Reader (fill range cs res)
  | [], res => reader_pure _
  | c :: cs, res => (reader_lift _).bind fun _ => (reader_loadRange _ _).bind fun _ => (reader_lift _).bind fun _ => reader_fill range cs _

theorem reader_read (range : Range) : Reader (read range) :=
  (reader_lift _).bind fun _ => reader_self.bind fun _ => (reader_lift _).bind fun _ => (reader_lift _).bind fun _ =>
    reader_self.bind fun _ => reader_fill _ _ _

theorem reader_ensure (b : Bool) : Reader (ensure b) := reader_lift _

theorem reader_loadChunks (range : Range) (cs : List Chunk) : Reader (loadChunks range cs) :=
  (reader_lift _).bind fun _ => reader_fill _ _ _

theorem reader_loadPrefixed (start : Nat) : Reader (loadPrefixed start) := by
  unfold loadPrefixed
  dsimp only
  repeat' with_reducible first
    | exact reader_self
    | exact reader_pure _
    | exact reader_lift _
    | exact reader_ensure _
    | exact reader_loadChunks _ _
    | refine Reader.bind ?_ fun _ => ?_
    | split

/-- What is filled keeps its length. -/
theorem fill_length (range : Range) : ∀ (cs : List Chunk) (res : Bytes) (w w' : File) (bs : Bytes),
    fill range cs res w = (.ok bs, w') → bs.length = res.length
  | [], res, w, w', bs, h => by
    have h : ((Out.ok res : Out Bytes), w) = (.ok bs, w') := h
    simp only [Prod.mk.injEq, Out.ok.injEq] at h
    rw [h.1]
  | c :: cs, res, w, w', bs, h => by
    unfold fill at h
    match h1 : ranges c.range range with
    | .ok (sr, tr) =>
      rw [h1, bind_ok (x := lift _) rfl] at h
      dsimp only at h
      match h2 : loadRange c sr w with
      | (.ok d, w1) =>
        rw [bind_ok h2] at h
        match h3 : copyTo d res tr with
        | .ok res' =>
          rw [h3, bind_ok (x := lift _) rfl] at h
          rw [fill_length range cs res' w1 w' bs h]
          unfold copyTo at h3
          split at h3
          · rename_i hc
            rw [← Out.ok.inj h3]
            simp only [List.length_append, List.length_take, List.length_drop]
            omega
          · exact absurd h3 (by simp)
        | .err => rw [h3, bind_err (x := lift _) rfl] at h; exact absurd h (by simp)
        | .panic => rw [h3, bind_panic (x := lift _) rfl] at h; exact absurd h (by simp)
        | .crash => rw [h3, bind_crash (x := lift _) rfl] at h; exact absurd h (by simp)
      | (.err, w1) => rw [bind_err h2] at h; exact absurd h (by simp)
      | (.panic, w1) => rw [bind_panic h2] at h; exact absurd h (by simp)
      | (.crash, w1) => rw [bind_crash h2] at h; exact absurd h (by simp)
    | .err => rw [h1, bind_err (x := lift _) rfl] at h; exact absurd h (by simp)
    | .panic => rw [h1, bind_panic (x := lift _) rfl] at h; exact absurd h (by simp)
    | .crash => rw [h1, bind_crash (x := lift _) rfl] at h; exact absurd h (by simp)

/-- A successful bind. -/
theorem bind_inv {α β : Type} {x : M α} {f : α → M β} {w w' : File} {b : β} (h : (x >>= f) w = (.ok b, w')) :
    ∃ a w1, x w = (.ok a, w1) ∧ f a w1 = (.ok b, w') := by
  match hx : x w with
  | (.ok a, w1) => rw [bind_ok hx] at h; exact ⟨a, w1, rfl, h⟩
  | (.err, w1) => rw [bind_err hx] at h; exact absurd h (by simp)
  | (.panic, w1) => rw [bind_panic hx] at h; exact absurd h (by simp)
  | (.crash, w1) => rw [bind_crash hx] at h; exact absurd h (by simp)

/-- Reading a reversed range gives nothing. -/
theorem read_reversed {a b : Nat} (hab : ¬ a ≤ b) {w w' : File} {bs : Bytes} (h : read (a, b) w = (.ok bs, w')) : bs = [] := by
  unfold read at h
  dsimp only at h
  obtain ⟨_, _, _, h⟩ := bind_inv h
  obtain ⟨_, _, _, h⟩ := bind_inv h
  obtain ⟨_, _, _, h⟩ := bind_inv h
  obtain ⟨res, w1, h1, h⟩ := bind_inv h
  obtain ⟨w2, w3, -, h⟩ := bind_inv h
  have := fill_length _ _ _ _ _ _ h
  have h0 : b - a = 0 := by omega
  have hb : buffer (a, b) = .ok [] := by
    unfold buffer
    dsimp only
    rw [h0, toUsize_ok (by omega), out_bind_ok]
    decide
  rw [hb] at h1
  have h1 : ((Out.ok [] : Out Bytes), _) = (.ok res, w1) := h1
  simp only [Prod.mk.injEq, Out.ok.injEq] at h1
  rw [← h1.1] at this
  exact List.length_eq_zero_iff.1 this

theorem ranges_reversed {src tgt : Range} (ho : overlap src tgt = true) (ht : tgt.2 < tgt.1) (hs : src.2 < 2 ^ 31) :
    ranges src tgt = .ok ((tgt.1 - src.1, tgt.2 - src.1), (0, 0)) := by
  obtain ⟨s1, s2⟩ := src
  obtain ⟨t1, t2⟩ := tgt
  rw [overlap_iff] at ho
  dsimp only at ho hs ht ⊢
  unfold ranges
  dsimp only
  have e1 : min (t1 - s1) (s2 - s1) = t1 - s1 := by omega
  have e2 : min (t2 - s1) (s2 - s1) = t2 - s1 := by omega
  rw [e1, e2, toI64_ok (by omega), toI64_ok (by omega), toI64_ok (by omega), toI64_ok (by omega)]
  simp only [out_bind_ok]
  rw [checkI64_ok (by omega), out_bind_ok, checkI64_ok (by omega), out_bind_ok, checkI64_ok (by omega), out_bind_ok,
    toUsize_ok (by omega), out_bind_ok, toUsize_ok (by omega), out_bind_ok, toUsize_ok (by omega), out_bind_ok,
    toUsize_ok (by omega), out_bind_ok, out_pure]
  have q1 : (((t1 - s1 : Nat) : Int)).toNat = t1 - s1 := by omega
  have q2 : (((t2 - s1 : Nat) : Int)).toNat = t2 - s1 := by omega
  have q3 : (max (((t1 - s1 : Nat) : Int) + (↑s1 - ↑t1)) 0).toNat = 0 := by omega
  have q4 : (max (((t2 - s1 : Nat) : Int) + (↑s1 - ↑t1)) 0).toNat = 0 := by omega
  rw [q1, q2, q3, q4]

theorem fill_reversed {a b : Nat} (hab : ¬ a ≤ b) : ∀ (cs : List Chunk) {w : File} (h : Inv w) (hq : Calm w.evs)
    (hc : ∀ c ∈ cs, c ∈ w.chunks ∧ overlap c.range (a, b) = true) (hs : SmallChunks cs), ∃ evs',
    fill (a, b) cs [] w = (.ok [], { w with evs := evs' })
  | [], w, h, hq, hc, hs => ⟨w.evs, rfl⟩
  | c :: cs, w, h, hq, hc, hs => by
    obtain ⟨hcm, ho⟩ := hc c (by simp)
    have hsm := hs c (by simp)
    have ho' := overlap_iff.1 ho
    dsimp only [Chunk.range] at ho'
    unfold fill
    rw [ranges_reversed ho (by dsimp only; omega) (by dsimp only [Chunk.range]; omega), bind_ok (x := lift _) rfl]
    dsimp only [Chunk.range]
    obtain ⟨evs', hq', hr⟩ := loadRange_spec h hcm (a - c.offset, b - c.offset)
    dsimp only at hr
    rcases hr with e | ⟨hn, -⟩ | ⟨hn, -⟩
    · have he : ((dat w.name w.cache c).take (b - c.offset)).drop (a - c.offset) = [] := by
        apply List.drop_eq_nil_of_le
        rw [List.length_take]
        omega
      rw [he] at e
      rw [bind_ok e, show copyTo [] [] (0, 0) = .ok [] from rfl, bind_ok (x := lift _) rfl]
      exact fill_reversed hab cs (w := { w with evs := evs' }) h (hq' hq) (fun c hcm => hc c (by simp [hcm])) fun c hcm => hs c (by simp [hcm])
    · rcases hn with hn | hn
      · exact absurd hq hn
      · exact absurd ⟨by omega, by omega⟩ hn
    · exact absurd hq hn

theorem read_empty {a b : Nat} (hab : ¬ a ≤ b) {w : File} (h : Inv w) (hq : Calm w.evs) (hs : SmallChunks w.chunks) (hb : b ≤ length w) :
    (read (a, b) w).1 = .ok [] := by
  have h0 : b - a = 0 := by omega
  have hl : (prev w).range.2 = length w := rfl
  unfold read
  dsimp only
  have hbuf : buffer (a, b) = .ok [] := by
    unfold buffer
    dsimp only
    rw [h0, toUsize_ok (by omega), out_bind_ok]
    decide
  rw [h0, toUsize_ok (by omega), bind_ok (x := lift _) rfl, bind_ok (x := self) rfl, hl,
    bind_ok (w' := w) (a := ()) (by simp [ensure, lift, hb]), hbuf, bind_ok (x := lift _) rfl, bind_ok (x := self) rfl]
  obtain ⟨evs', e⟩ := fill_reversed hab (intersecting w.chunks (a, b)) h hq (fun c hc => ⟨(List.mem_filter.1 hc).1, (List.mem_filter.1 hc).2⟩)
    fun c hc => hs c (List.mem_filter.1 hc).1
  rw [e]

/-! ### Steps -/

/-- What holds between calls. -/
def WInv (w : World) : Prop := CInv w.name w.cache ∧ ∀ cs, w.handle = some cs → cs = chunksOf w.cache w.name

/-- The contents of the file in the cache. -/
def World.bytes (w : World) : Contents := byteAt w.name w.cache

theorem winv_after {α : Type} {w : File} {r : Out α} (h : CInv w.name w.cache) (hi : r ≠ .crash → Inv w) :
    WInv (after (r, w)) ∧ (after (r, w)).bytes = byteAt w.name w.cache ∧ (after (r, w)).name = w.name ∧ (after (r, w)).cache = w.cache := by
  match r with
  | .ok a => exact ⟨⟨h, fun cs hcs => by cases hcs; exact (hi (by simp)).2⟩, rfl, rfl, rfl⟩
  | .err => exact ⟨⟨h, fun cs hcs => by cases hcs; exact (hi (by simp)).2⟩, rfl, rfl, rfl⟩
  | .panic => exact ⟨⟨h, fun cs hcs => by cases hcs⟩, rfl, rfl, rfl⟩
  | .crash => exact ⟨⟨h, fun cs hcs => by cases hcs⟩, rfl, rfl, rfl⟩

theorem shows_tab (a n : Nat) (v : Contents) : Shows v a (tab a n v) := by
  intro i hi
  rw [List.getElem?_eq_getElem hi, tab_get]

theorem WInv.file {w : World} (h : WInv w) {cs : List Chunk} (hc : w.handle = some cs) (evs : List Ev) : Inv ⟨w.cache, w.name, cs, evs⟩ :=
  ⟨h.1, h.2 cs hc⟩

theorem length_lt {w : File} (h : Inv w) : length w < 2 ^ 64 := by
  have := length_le_of (w := w) (n := 2 ^ 64 - 1) fun c hc => by have := (h.valid c hc).2; omega
  omega

/-- A reader does nothing to the world, but it can end with a crash. -/
theorem after_reader {α : Type} {x : M α} (hx : Reader x) {w : World} (h : WInv w) {cs : List Chunk} (hc : w.handle = some cs)
    (evs : List Ev) : WInv (after (x ⟨w.cache, w.name, cs, evs⟩)) ∧ (after (x ⟨w.cache, w.name, cs, evs⟩)).bytes = w.bytes ∧
      (after (x ⟨w.cache, w.name, cs, evs⟩)).name = w.name ∧ (after (x ⟨w.cache, w.name, cs, evs⟩)).cache = w.cache := by
  obtain ⟨evs', e⟩ := hx ⟨w.cache, w.name, cs, evs⟩
  match hr : x ⟨w.cache, w.name, cs, evs⟩ with
  | (r, w') =>
    rw [hr] at e
    have e : w' = _ := e
    rw [e]
    exact winv_after (w := ⟨w.cache, w.name, cs, evs'⟩) h.1 fun _ => h.file hc evs'

/-- `append_length_prefixed`. -/
theorem appendPrefixed_spec {w : File} (h : Inv w) (data : Bytes) : ∃ w' r, appendPrefixed data w = (r, w') ∧ Next w w' ∧
    (r ≠ .crash → Inv w') ∧ (∀ n, r = .ok n → n = length w) ∧
    ((∀ p, byteAt w'.name w'.cache p = byteAt w.name w.cache p) ∧ (∀ n, r ≠ .ok n) ∨
     ∀ p, byteAt w'.name w'.cache p = overwrite (byteAt w.name w.cache) (length w) (record data) p) := by
  unfold appendPrefixed
  split
  · exact append_spec h _
  · exact ⟨w, .panic, rfl, ⟨rfl, h.1, fun h => h, rfl⟩, fun _ => h, by simp, Or.inl ⟨fun p => rfl, by simp⟩⟩

theorem explains_put {v v' : Contents} {data : Bytes} {evs : List Ev} {r : Out Bytes} (hr : ∀ id, r ≠ .ok id)
    (h : v' = v ∨ ∃ offset, v' = overwrite v offset (record data)) : Explains v (.put data evs) (.bytes r) v' := by
  cases r with
  | ok id => exact absurd rfl (hr id)
  | err => exact h
  | panic => exact h
  | crash => exact h

theorem step_spec {w : World} (h : WInv w) (c : Call) : Explains w.bytes c (step w c).1 (step w c).2.bytes ∧ WInv (step w c).2 ∧
    (step w c).2.name = w.name ∧ others w.name (step w c).2.cache = others w.name w.cache := by
  cases c with
  | reopen => exact ⟨rfl, ⟨h.1, fun cs hcs => by cases hcs; rfl⟩, rfl, rfl⟩
  | length =>
    unfold step
    cases hh : w.handle with
    | none => exact ⟨rfl, h, rfl, rfl⟩
    | some cs => exact ⟨rfl, h, rfl, rfl⟩
  | write offset data evs =>
    unfold step
    cases hh : w.handle with
    | none => exact ⟨rfl, h, rfl, rfl⟩
    | some cs =>
      obtain ⟨w', r, e, hn, hi, hv⟩ := write_spec (h.file hh evs) offset data
      dsimp only
      rw [e]
      obtain ⟨h1, h2, h3, h4⟩ := winv_after (r := r) hn.inv hi
      refine ⟨?_, h1, h3.trans hn.name, by rw [h4]; exact hn.others⟩
      rw [h2]
      rcases hv with hv | hv
      · exact Or.inr ⟨hv.2, funext hv.1⟩
      · exact Or.inl (funext hv)
  | truncate n evs =>
    unfold step
    cases hh : w.handle with
    | none => exact ⟨rfl, h, rfl, rfl⟩
    | some cs =>
      obtain ⟨w', r, e, hn, hi, hv1, hv2, hv3⟩ := truncate_spec (h.file hh evs) n
      dsimp only
      rw [e]
      obtain ⟨h1, h2, h3, h4⟩ := winv_after (r := r) hn.inv hi
      refine ⟨?_, h1, h3.trans hn.name, by rw [h4]; exact hn.others⟩
      rw [h2]
      refine ⟨hv1, fun p hp => ?_⟩
      by_cases hr : r = .ok ()
      · exact Or.inl ((hv3 hr).1 p hp)
      · exact (hv2 p).symm.imp_right fun h => ⟨hr, h⟩
  | read a b evs =>
    unfold step
    cases hh : w.handle with
    | none => exact ⟨rfl, h, rfl, rfl⟩
    | some cs =>
      dsimp only
      obtain ⟨h1, h2, h3, h4⟩ := after_reader (reader_read (a, b)) h hh evs
      refine ⟨?_, h1, h3, by rw [h4]⟩
      match hr : read (a, b) ⟨w.cache, w.name, cs, evs⟩ with
      | (.ok bs, w') =>
        rw [hr] at h2
        refine ⟨h2, ?_⟩
        by_cases hab : a ≤ b
        · obtain ⟨evs', r, -, e, hb, -⟩ := read_spec hab (h.file hh evs)
          rw [hr] at e
          have e1 : (Out.ok bs : Out Bytes) = r := congrArg Prod.fst e
          obtain ⟨-, e2⟩ := hb bs e1.symm
          rw [e2]
          exact ⟨by simp [tab_length], shows_tab _ _ _⟩
        · rw [read_reversed hab hr]
          exact ⟨by simp; omega, fun i hi => absurd hi (by simp)⟩
      | (.err, w') => rw [hr] at h2; exact h2
      | (.panic, w') => rw [hr] at h2; exact h2
      | (.crash, w') => rw [hr] at h2; exact h2
  | put data evs =>
    unfold step
    cases hh : w.handle with
    | none => exact ⟨rfl, h, rfl, rfl⟩
    | some cs =>
      obtain ⟨w', r, e, hn, hi, ho, hv⟩ := appendPrefixed_spec (h.file hh evs) data
      dsimp only
      rw [e]
      obtain ⟨h1, h2, h3, h4⟩ := winv_after (r := r) hn.inv hi
      refine ⟨?_, h1, h3.trans hn.name, by rw [h4]; exact hn.others⟩
      rw [h2]
      match r, ho, hv with
      | .ok n, ho, hv =>
        have hlt := length_lt (h.file hh evs)
        have hn := ho n rfl
        refine ⟨toBE_length 8 n, ?_⟩
        rw [ofBE_toBE_lt (by omega), hn]
        exact funext (hv.resolve_left fun h => h.2 n rfl)
      | .err, ho, hv => exact explains_put (by simp [Out.map]) (hv.elim (fun h => Or.inl (funext h.1)) fun h => Or.inr ⟨_, funext h⟩)
      | .panic, ho, hv => exact explains_put (by simp [Out.map]) (hv.elim (fun h => Or.inl (funext h.1)) fun h => Or.inr ⟨_, funext h⟩)
      | .crash, ho, hv => exact explains_put (by simp [Out.map]) (hv.elim (fun h => Or.inl (funext h.1)) fun h => Or.inr ⟨_, funext h⟩)
  | get id evs =>
    unfold step
    cases hh : w.handle with
    | none => exact ⟨rfl, h, rfl, rfl⟩
    | some cs =>
      dsimp only
      split
      · obtain ⟨h1, h2, h3, h4⟩ := after_reader (reader_loadPrefixed (ofBE id)) h hh evs
        exact ⟨h2, h1, h3, by rw [h4]⟩
      · exact ⟨rfl, h, rfl, rfl⟩

theorem log_possible : ∀ (cs : List Call) {w : World} (h : WInv w), Possible w.bytes (log w cs) (run w cs).bytes ∧ WInv (run w cs) ∧
    (run w cs).name = w.name ∧ others w.name (run w cs).cache = others w.name w.cache
  | [], w, h => ⟨rfl, h, rfl, rfl⟩
  | c :: cs, w, h => by
    obtain ⟨h1, h2, h3, h4⟩ := step_spec h c
    obtain ⟨h5, h6, h7, h8⟩ := log_possible cs h2
    exact ⟨⟨_, h1, h5⟩, h6, h7.trans h3, by rw [h3] at h8; exact h8.trans h4⟩

theorem winv_fresh {cache : Cache} {name : Name} (hp : ∀ x ∈ name, x ≠ '?') (hu : Unused cache name) :
    WInv (fresh cache name) ∧ (fresh cache name).bytes = nothing := by
  have hc : ∀ c, c ∉ chunksOf cache name := by
    intro c hc
    obtain ⟨e, he, hpe⟩ := mem_chunksOf.1 hc
    rw [hu e he] at hpe
    exact absurd hpe (by simp)
  refine ⟨⟨⟨hp, fun e he c hpe => ?_⟩, fun cs hcs => by cases hcs⟩, ?_⟩
  · have hpe : parseRequest e.1 name = some c := hpe
    rw [hu e he] at hpe; exact absurd hpe (by simp)
  · funext p
    exact view_none fun c hcm => absurd hcm (hc c)

theorem run_append : ∀ (a b : List Call) (w : World), run w (a ++ b) = run (run w a) b
  | [], b, w => rfl
  | c :: a, b, w => run_append a b _

theorem log_append : ∀ (a b : List Call) (w : World), log w (a ++ b) = log w a ++ log (run w a) b
  | [], b, w => rfl
  | c :: a, b, w => by
    show _ :: log _ (a ++ b) = _ :: (log _ a ++ _)
    rw [log_append a b]; rfl

theorem possible_append : ∀ {a b : List (Call × Seen)} {v v' : Contents}, Possible v (a ++ b) v' ↔ ∃ u, Possible v a u ∧ Possible u b v'
  | [], b, v, v' => by simp [Possible]
  | e :: a, b, v, v' => by
    show (∃ u, Explains v e.1 e.2 u ∧ Possible u (a ++ b) v') ↔ _
    constructor
    · rintro ⟨u, h1, h2⟩
      obtain ⟨u', h3, h4⟩ := possible_append.1 h2
      exact ⟨u', ⟨u, h1, h3⟩, h4⟩
    · rintro ⟨u', ⟨u, h1, h3⟩, h4⟩
      exact ⟨u, h1, possible_append.2 ⟨u', h3, h4⟩⟩

end Radix.Browser
