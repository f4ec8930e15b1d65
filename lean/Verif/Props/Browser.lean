import Verif.Proofs.BrowserAppend

/-
C44 to C49 and C58: files of the browser file system.

A history is a list of calls on one file (`Call`), each with a list of what happens to its cache operations (success, failure, or the page is
closed before or after the operation). `log` is what the user sees.
-/

set_option linter.unusedVariables false

namespace Radix.Browser

open Radix.Spec

variable {cache : Cache} {name : Name}

/-- The bytes that a list of writes gives (specification). -/
def written : Contents → List Call → Contents
  | v, [] => v
  | v, .write offset data _ :: cs => written (overwrite v offset data) cs
  | v, _ :: cs => written v cs

theorem possible_written : ∀ {cs : List Call} {w : World} {v v' : Contents}, OnlyWrites cs → WritesOk (log w cs) → Possible v (log w cs) v' →
    v' = written v cs
  | [], w, v, v', _, _, h => h
  | c :: cs, w, v, v', hc, hok, h => by
    obtain ⟨u, h1, h2⟩ := h
    have hc' : OnlyWrites cs := fun x hx => hc x (by simp [hx])
    have hok' : WritesOk (log (step w c).2 cs) := fun e he => hok e (by unfold log; exact List.mem_cons_of_mem _ he)
    have ih := possible_written hc' hok' h2
    have h1 : Explains v c (step w c).1 u := h1
    cases c with
    | truncate n evs => exact absurd rfl ((hc _ (by simp)).1 n evs)
    | put d evs => exact absurd rfl ((hc _ (by simp)).2 d evs)
    | write o d evs =>
      have hr : (step w (.write o d evs)).1 = .done (.ok ()) := hok (_, (step w (.write o d evs)).1) (by simp [log]) o d evs rfl
      rw [hr] at h1
      rcases h1 with h1 | ⟨h1, -⟩
      · rw [ih, h1]; rfl
      · exact absurd rfl h1
    | reopen =>
      have h1 : u = v := h1
      rw [ih, h1]; rfl
    | length =>
      have h1 : u = v := by revert h1; generalize (step w .length).1 = s; intro h1; cases s <;> exact h1
      rw [ih, h1]; rfl
    | read a b evs =>
      have h1 : u = v := by
        revert h1; generalize (step w (.read a b evs)).1 = s; intro h1
        match s, h1 with
        | .bytes (.ok bs), h1 => exact h1.1
        | .bytes .err, h1 => exact h1
        | .bytes .panic, h1 => exact h1
        | .bytes .crash, h1 => exact h1
        | .opened, h1 => exact h1
        | .done _, h1 => exact h1
        | .num _, h1 => exact h1
        | .closed, h1 => exact h1
      rw [ih, h1]; rfl
    | get id evs =>
      have h1 : u = v := by revert h1; generalize (step w (.get id evs)).1 = s; intro h1; cases s <;> exact h1
      rw [ih, h1]; rfl

/-- **C44** (partial: the reads that return `Ok` are right; they can also fail, see `C44_false`). For every history of calls, including writes at all offsets,
truncations, failures of the browser, closing the page at any point, and opening the file again, there are contents of the file between the calls,
starting with nothing but zeros, that explain everything that was seen: every write and truncation that returned `Ok` changed the contents as asked, every
one that did not return `Ok` did so or not, and every read that returned bytes returned those of the contents. -/
theorem C44_history_partial (hp : Plain name) (hu : Unused cache name) (cs : List Call) :
    ∃ v, Possible nothing (log (fresh cache name) cs) v := by
  obtain ⟨h1, h2⟩ := winv_fresh hp.ne hu
  have h3 := (log_possible cs h1).1
  rw [h2] at h3
  exact ⟨_, h3⟩

/-- **C44** (partial). After any sequence of writes that returned `Ok`, with reads and reopening in between, a read that returns `Ok` gives at each offset the
last byte written there, and 0 where nothing was written. -/
theorem C44_last_written_partial (hp : Plain name) (hu : Unused cache name) {cs : List Call} (hc : OnlyWrites cs)
    (hok : WritesOk (log (fresh cache name) cs)) {a b : Nat} {evs : List Ev} {bs : Bytes}
    (hr : (step (run (fresh cache name) cs) (.read a b evs)).1 = .bytes (.ok bs)) :
    bs.length = b - a ∧ ∀ i, i < b - a → bs[i]? = some (written nothing cs (a + i)) := by
  obtain ⟨h1, h2⟩ := winv_fresh hp.ne hu
  obtain ⟨h3, h4, -⟩ := log_possible cs h1
  rw [h2] at h3
  obtain ⟨h5, -⟩ := step_spec h4 (.read a b evs)
  rw [hr, possible_written hc hok h3] at h5
  exact ⟨h5.2.1, fun i hi => h5.2.2 i (by rw [h5.2.1]; exact hi)⟩

/-- **C44**: if the browser does not fail, the file is open and all offsets are below 2 GiB, then writes, truncations, `put`, and reads up to the length
return `Ok`. (So the theorems about calls that return `Ok` do not speak of nothing.) -/
theorem C44_succeeds_partial (hp : Plain name) (hu : Unused cache name) {cs : List Call} {evs : List Ev} (he : Calm evs)
    (ho : (run (fresh cache name) cs).handle.isSome) :
    (∀ o d, cs.length < 2 ^ 64 → reach 0 (cs ++ [.write o d evs]) < 2 ^ 31 → (step (run (fresh cache name) cs) (.write o d evs)).1 = .done (.ok ())) ∧
    (∀ n, cs.length < 2 ^ 64 → reach 0 cs < 2 ^ 31 → (step (run (fresh cache name) cs) (.truncate n evs)).1 = .done (.ok ())) ∧
    (∀ d, cs.length < 2 ^ 64 → reach 0 (cs ++ [.put d evs]) < 2 ^ 31 → ∃ id, (step (run (fresh cache name) cs) (.put d evs)).1 = .bytes (.ok id)) ∧
    ∃ n, (step (run (fresh cache name) cs) .length).1 = .num n ∧ ∀ a b, reach 0 cs < 2 ^ 31 → b ≤ n →
      ∃ bs, (step (run (fresh cache name) cs) (.read a b evs)).1 = .bytes (.ok bs) := by
  obtain ⟨h1, h2⟩ := winv_fresh hp.ne hu
  obtain ⟨-, h4, h5, -⟩ := log_possible cs h1
  have hb : Within (chunksOf (run (fresh cache name) cs).cache (run (fresh cache name) cs).name) (reach 0 cs) cs.length := by
    rw [h5]
    have := run_within cs (E := 0) (L := 0) h1 (by
      intro c hc
      obtain ⟨e, hem, hpe⟩ := mem_chunksOf.1 hc
      have hpe : parseRequest e.1 name = some c := hpe
      rw [hu e hem] at hpe
      exact absurd hpe (by simp))
    rw [Nat.zero_add] at this
    exact this
  have hreach : ∀ c, reach 0 (cs ++ [c]) = reach (reach 0 cs) [c] := by
    intro c
    generalize 0 = m
    induction cs generalizing m with
    | nil => rfl
    | cons x xs ih =>
      rw [List.cons_append, reach_cons, reach_cons m x xs]
      have : ∀ (cs : List Call) m, reach m (cs ++ [c]) = reach (reach m cs) [c] := by
        intro cs
        induction cs with
        | nil => intro m; rfl
        | cons y ys ih' => intro m; rw [List.cons_append, reach_cons, reach_cons m y ys]; exact ih' _
      exact this xs _
  obtain ⟨ch, hch⟩ := Option.isSome_iff_exists.1 ho
  have hi := h4.file hch evs
  have hb' : Within (File.mk (run (fresh cache name) cs).cache (run (fresh cache name) cs).name ch evs).chunks (reach 0 cs) cs.length := by
    rw [hi.2]; exact hb
  refine ⟨fun o d hl hr => ?_, fun n hl hr => ?_, fun d hl hr => ?_, ?_⟩
  · rw [hreach] at hr
    unfold step
    rw [hch]
    dsimp only
    rw [write_succeeds hi hb' he hr hl]
  · unfold step
    rw [hch]
    dsimp only
    rw [truncate_succeeds hi hb' he hr hl]
  · rw [hreach] at hr
    unfold step
    rw [hch]
    dsimp only
    rw [put_succeeds hi hb' he hr hl]
    exact ⟨_, rfl⟩
  · unfold step
    rw [hch]
    refine ⟨_, rfl, fun a b hr hbl => ?_⟩
    dsimp only
    by_cases hab : a ≤ b
    · obtain ⟨evs', r, -, e, -, hs⟩ := read_spec hab hi
      obtain ⟨bs, hbs⟩ := hs he (hb'.small hr) hbl
      rw [e, hbs]
      exact ⟨bs, rfl⟩
    · refine ⟨[], ?_⟩
      have e := read_empty (w := ⟨(run (fresh cache name) cs).cache, (run (fresh cache name) cs).name, ch, evs⟩) hab hi he (hb'.small hr) hbl
      rw [e]

/-! An example: a history with overlapping writes, a crash, a truncation and reads. -/

/-- A file name. -/
def exName : Name := "data".toList

/-- The cache has an entry of another file. -/
def exCache : Cache := [("/other?0000-00000000-0003".toList, [1, 2, 3])]

/-- Two overlapping writes, a write that is interrupted after its first cache operation, then the file is opened again. -/
def exCalls : List Call :=
  [.reopen, .write 0 [1, 2, 3, 4] [], .write 2 [5, 6, 7, 8] [], .read 0 6 [], .write 1 [9] [.ok, .crash false], .read 0 6 [], .reopen, .read 0 2 [],
    .write 6 [10] [], .length, .read 0 7 [], .truncate 3 [], .read 0 3 [], .length]

theorem exPlain : Plain exName := by unfold Plain exName; decide +kernel

theorem exUnused : Unused exCache exName := by
  intro e he
  rw [List.mem_singleton.1 he]
  decide +kernel

example : (log (fresh exCache exName) exCalls).map (·.2) =
    [.opened, .done (.ok ()), .done (.ok ()), .bytes (.ok [1, 2, 5, 6, 7, 8]), .done .crash, .closed, .opened, .bytes (.ok [1, 9]), .done (.ok ()),
      .num 2, .bytes .err, .done (.ok ()), .bytes (.ok [1, 9, 5]), .num 3] := by
  decide +kernel

/-- The writes of the next theorem return `Ok`. -/
def exShrunk : List Call := [.reopen, .write 0 [1, 2, 3, 4] [], .write 4 [5, 6, 7, 8] [], .write 0 [9] []]

/-- The hypotheses of `C44_last_written_partial` are met. -/
example : OnlyWrites exShrunk ∧ WritesOk (log (fresh exCache exName) exShrunk) ∧
    (step (run (fresh exCache exName) exShrunk) (.read 0 3 [])).1 = .bytes (.ok [9, 2, 3]) := by
  refine ⟨?_, ?_, by decide +kernel⟩
  · intro c hc
    simp only [exShrunk, List.mem_cons, List.not_mem_nil, or_false] at hc
    rcases hc with rfl | rfl | rfl | rfl <;> simp
  · intro e he o d evs
    have hl : log (fresh exCache exName) exShrunk = [(.reopen, .opened), (.write 0 [1, 2, 3, 4] [], .done (.ok ())),
        (.write 4 [5, 6, 7, 8] [], .done (.ok ())), (.write 0 [9] [], .done (.ok ()))] := by decide +kernel
    rw [hl] at he
    simp only [List.mem_cons, List.not_mem_nil, or_false] at he
    rcases he with rfl | rfl | rfl | rfl <;> simp

/-- The hypotheses of `C44_succeeds_partial` are met. -/
example : (run (fresh exCache exName) exShrunk).handle.isSome ∧ Calm [] ∧ reach 0 (exShrunk ++ [.write 3 [1, 1] []]) < 2 ^ 31 := by
  refine ⟨by decide +kernel, ?_, by decide +kernel⟩
  intro e he; exact absurd he (by simp)

/-- **C44** is false as it stands: after three writes that returned `Ok`, nothing was cut off and nothing failed, but bytes that were written cannot be read any
more. (`length` takes the end of the chunk with the highest level.) -/
theorem C44_false : ∃ cs : List Call, OnlyWrites cs ∧ (log (fresh [] exName) cs).map (·.2) =
    [.opened, .done (.ok ()), .done (.ok ()), .bytes (.ok [1, 2, 3, 4, 5, 6, 7, 8]), .done (.ok ()), .bytes .err] ∧
    cs = [.reopen, .write 0 [1, 2, 3, 4] [], .write 4 [5, 6, 7, 8] [], .read 0 8 [], .write 0 [9] [], .read 0 8 []] := by
  refine ⟨_, ?_, ?_, rfl⟩
  · intro c hc
    simp only [List.mem_cons, List.not_mem_nil, or_false] at hc
    rcases hc with rfl | rfl | rfl | rfl | rfl | rfl <;> simp
  · decide +kernel

/-! ### C45: the length -/

/-- The largest end of some writes (specification). -/
def furthest (ws : List (Nat × Nat)) : Nat := ws.foldr (fun x m => max (x.1 + x.2) m) 0

/-- **C45** (partial: for writes that do not overlap). After any sequence of writes of which no two overlap, in any order, that returned `Ok`, with reads and reopening in
between, the length is the end of the furthest write. -/
theorem C45_apart_partial (hp : Plain name) (hu : Unused cache name) {cs : List Call} (hc : OnlyWrites cs)
    (hok : WritesOk (log (fresh cache name) cs)) (ha : (writesOf cs).Pairwise Apart) {n : Nat}
    (hn : (step (run (fresh cache name) cs) .length).1 = .num n) : n = furthest (writesOf cs) := by
  obtain ⟨h1, h2⟩ := winv_fresh hp.ne hu
  obtain ⟨-, h4, h5, -⟩ := log_possible cs h1
  have he := run_exact cs (ws := []) h1 (by
    intro c
    constructor
    · intro hc
      obtain ⟨e, hem, hpe⟩ := mem_chunksOf.1 hc
      have hpe : parseRequest e.1 name = some c := hpe
      rw [hu e hem] at hpe
      exact absurd hpe (by simp)
    · rintro ⟨x, hx, -⟩; exact absurd hx (by simp)) ha hc hok
  rw [List.nil_append, ← h5] at he
  unfold step at hn
  cases hh : (run (fresh cache name) cs).handle with
  | none => rw [hh] at hn; exact absurd hn (by simp)
  | some ch =>
    rw [hh] at hn
    have hn := Seen.num.inj hn
    have hi := h4.file hh []
    have hex : Exact ch (writesOf cs) := by rw [show ch = _ from hi.2]; exact he
    have hs : Sorted ch := by rw [show ch = _ from hi.2]; exact sorted_chunksOf _ _
    have hfl := flat_length (w := ⟨(run (fresh cache name) cs).cache, (run (fresh cache name) cs).name, ch, []⟩) hs (hex.flat ha)
    have hsp := foldr_max_spec (ws := writesOf cs)
    rw [← hn]
    refine Nat.le_antisymm (length_le_of fun c hc => ?_) ?_
    · obtain ⟨x, hx, rfl⟩ := (hex c).1 hc
      exact hsp.1 x hx
    · rcases hsp.2 with h0 | ⟨x, hx, hxe⟩
      · rw [h0]; exact Nat.zero_le _
      · show _ ≤ _
        rw [furthest, ← hxe]
        exact hfl ⟨0, x.1, x.2⟩ ((hex _).2 ⟨x, hx, rfl⟩)

/-- **C45** (partial). The length is never more than the end of the furthest write: for every history, with failures, crashes, truncations, and reopening. -/
theorem C45_bound_partial (hp : Plain name) (hu : Unused cache name) {cs : List Call} {n : Nat}
    (hn : (step (run (fresh cache name) cs) .length).1 = .num n) : n ≤ reach 0 cs := by
  obtain ⟨h1, h2⟩ := winv_fresh hp.ne hu
  obtain ⟨-, h4, h5, -⟩ := log_possible cs h1
  have hb := run_within cs (E := 0) (L := 0) h1 (by
    intro c hc
    obtain ⟨e, hem, hpe⟩ := mem_chunksOf.1 hc
    have hpe : parseRequest e.1 name = some c := hpe
    rw [hu e hem] at hpe
    exact absurd hpe (by simp))
  unfold step at hn
  cases hh : (run (fresh cache name) cs).handle with
  | none => rw [hh] at hn; exact absurd hn (by simp)
  | some ch =>
    rw [hh] at hn
    rw [← Seen.num.inj hn]
    have hi := h4.file hh []
    refine length_le_within (L := 0 + cs.length) ?_
    rw [hi.2]
    show Within (chunksOf (run (fresh cache name) cs).cache (run (fresh cache name) cs).name) _ _
    rw [h5]; exact hb

/-- Writes that do not overlap, in an odd order. -/
def exApart : List Call := [.reopen, .write 4 [5, 6] [], .write 10 [7] [], .write 0 [1, 2, 3, 4] [], .reopen]

/-- The hypotheses of `C45_apart_partial` are met. -/
example : (writesOf exApart).Pairwise Apart ∧ (log (fresh exCache exName) exApart).map (·.2) =
    [.opened, .done (.ok ()), .done (.ok ()), .done (.ok ()), .opened] ∧ (step (run (fresh exCache exName) exApart) .length).1 = .num 11 := by
  refine ⟨?_, by decide +kernel, by decide +kernel⟩
  simp [exApart, writesOf, Apart]

/-- **C45** is false as it stands. -/
theorem C45_false : ∃ cs : List Call, OnlyWrites cs ∧ (log (fresh [] exName) cs).map (·.2) =
    [.opened, .done (.ok ()), .done (.ok ()), .num 8, .done (.ok ()), .num 4] ∧
    cs = [.reopen, .write 0 [1, 2, 3, 4] [], .write 4 [5, 6, 7, 8] [], .length, .write 0 [9] [], .length] := by
  refine ⟨_, ?_, ?_, rfl⟩
  · intro c hc
    simp only [List.mem_cons, List.not_mem_nil, or_false] at hc
    rcases hc with rfl | rfl | rfl | rfl | rfl | rfl <;> simp
  · decide +kernel

/-! ### C46: writes are atomic -/

/-- **C46** (partial: about the reads that return `Ok`). Let any history be followed by a write with anything happening to its cache operations (failure, or the page is closed at any
point), and then by any calls. Everything seen before is explained by contents `u` at the time of the write, and everything seen after it is explained by
starting from `u`, or from `u` with all of the data written. If the write returned `Ok`, it is the latter. -/
theorem C46_atomic_partial (hp : Plain name) (hu : Unused cache name) (cs : List Call) (o : Nat) (d : Bytes) (evs : List Ev) (more : List Call) :
    ∃ u v, Possible nothing (log (fresh cache name) cs) u ∧
      (Possible (overwrite u o d) (log (step (run (fresh cache name) cs) (.write o d evs)).2 more) v ∨
       Possible u (log (step (run (fresh cache name) cs) (.write o d evs)).2 more) v ∧
        (step (run (fresh cache name) cs) (.write o d evs)).1 ≠ .done (.ok ())) := by
  obtain ⟨h1, h2⟩ := winv_fresh hp.ne hu
  obtain ⟨h3, h4, -⟩ := log_possible cs h1
  rw [h2] at h3
  obtain ⟨h5, h6, -⟩ := step_spec h4 (.write o d evs)
  have h7 := (log_possible more h6).1
  refine ⟨_, (run (step (run (fresh cache name) cs) (.write o d evs)).2 more).bytes, h3, ?_⟩
  revert h5
  generalize hs : (step (run (fresh cache name) cs) (.write o d evs)).1 = s
  intro h5
  match s, h5 with
  | .done r, h5 =>
    rcases h5 with h5 | ⟨hr, h5⟩
    · rw [h5] at h7; exact Or.inl h7
    · rw [h5] at h7; exact Or.inr ⟨h7, fun e => hr (Seen.done.inj e)⟩
  | .opened, h5 => rw [show _ = _ from h5] at h7; exact Or.inr ⟨h7, by simp⟩
  | .num _, h5 => rw [show _ = _ from h5] at h7; exact Or.inr ⟨h7, by simp⟩
  | .bytes _, h5 => rw [show _ = _ from h5] at h7; exact Or.inr ⟨h7, by simp⟩
  | .closed, h5 => rw [show _ = _ from h5] at h7; exact Or.inr ⟨h7, by simp⟩

/-- An example of a write that is interrupted in the middle of its plan, after older chunks were already deleted; the new data is there, and the rest. -/
example : (log (fresh [] exName) [.reopen, .write 0 [1, 2, 3, 4] [], .write 0 [5, 6] [], .write 2 [7, 8, 9] [.ok, .crash true], .reopen, .read 0 5 []]).map (·.2) =
    [.opened, .done (.ok ()), .done (.ok ()), .done .crash, .opened, .bytes (.ok [5, 6, 7, 8, 9])] := by
  decide +kernel

/-- **C46** is false as it stands: a write of one byte is interrupted after its first cache operation; after the file is opened again, most of it cannot be
read. -/
theorem C46_false : (log (fresh [] exName) [.reopen, .write 0 [1, 2, 3, 4] [], .read 0 4 [], .write 1 [9] [.ok, .crash false], .reopen, .length, .read 0 4 []]).map (·.2) =
    [.opened, .done (.ok ()), .bytes (.ok [1, 2, 3, 4]), .done .crash, .opened, .num 2, .bytes .err] := by
  decide +kernel

/-- **C46** is false also when blobs are read with `get` in a file that is written at offsets: after the interrupted write of one byte inside of the blob, `read` sees
the new byte and `get` the old one. -/
theorem C46_get_false : (log (fresh [] exName) [.reopen, .put [1, 2, 3] [], .write 5 [9] [.ok, .crash false], .reopen, .read 4 6 [], .get [0, 0, 0, 0, 0, 0, 0, 0] []]).map (·.2) =
    [.opened, .bytes (.ok [0, 0, 0, 0, 0, 0, 0, 0]), .done .crash, .opened, .bytes (.ok [1, 9]), .bytes (.ok [1, 2, 3])] := by
  decide +kernel

/-! ### C47: truncating -/

/-- **C47** (partial: about the reads that return `Ok`). Let any history be followed by a truncation with anything happening to its cache operations, and then by any calls.
What is seen after it is explained by starting from contents with the same bytes below `n`, and where each byte from `n` on is the old one or 0. If it
returned `Ok`, they are all 0, and the length is at most `n`. -/
theorem C47_truncate_partial (hp : Plain name) (hu : Unused cache name) (cs : List Call) (n : Nat) (evs : List Ev) (more : List Call) :
    ∃ u u' v, Possible nothing (log (fresh cache name) cs) u ∧
      Possible u' (log (step (run (fresh cache name) cs) (.truncate n evs)).2 more) v ∧
      (∀ p, p < n → u' p = u p) ∧ (∀ p, u' p = u p ∨ u' p = 0) ∧
      ((step (run (fresh cache name) cs) (.truncate n evs)).1 = .done (.ok ()) → (∀ p, n ≤ p → u' p = 0) ∧
        ∃ m, (step (step (run (fresh cache name) cs) (.truncate n evs)).2 .length).1 = .num m ∧ m ≤ n) := by
  obtain ⟨h1, h2⟩ := winv_fresh hp.ne hu
  obtain ⟨h3, h4, -⟩ := log_possible cs h1
  rw [h2] at h3
  obtain ⟨h5, h6, -⟩ := step_spec h4 (.truncate n evs)
  have h7 := (log_possible more h6).1
  refine ⟨_, _, _, h3, h7, ?_⟩
  cases hh : (run (fresh cache name) cs).handle with
  | none =>
    have hst : step (run (fresh cache name) cs) (.truncate n evs) = (.closed, run (fresh cache name) cs) := by unfold step; rw [hh]
    rw [hst]
    exact ⟨fun p _ => rfl, fun p => Or.inl rfl, fun h => absurd h (by simp)⟩
  | some ch =>
    have hi := h4.file hh evs
    obtain ⟨w', r, e, hnx, hinv, hv1, hv2, hv3⟩ := truncate_spec hi n
    have hst : step (run (fresh cache name) cs) (.truncate n evs) = (.done r, after (r, w')) := by unfold step; rw [hh]; dsimp only; rw [e]
    obtain ⟨-, hby, -⟩ := winv_after (r := r) hnx.inv hinv
    rw [hst]
    dsimp only
    rw [hby]
    refine ⟨hv1, hv2, fun hr => ?_⟩
    have hr := Seen.done.inj hr
    refine ⟨(hv3 hr).1, ?_⟩
    rw [hr]
    exact ⟨_, rfl, length_le_of (hv3 hr).2⟩

/-- An example: a truncation that is interrupted. -/
example : (log (fresh [] exName) [.reopen, .write 0 [1, 2, 3, 4] [], .write 3 [5, 6, 7] [], .truncate 2 [.ok, .ok, .ok, .crash false], .reopen, .read 0 2 [], .truncate 2 [], .length,
      .read 0 2 []]).map (·.2) =
    [.opened, .done (.ok ()), .done (.ok ()), .done .crash, .opened, .bytes (.ok [1, 2]), .done (.ok ()), .num 2, .bytes (.ok [1, 2])] := by
  decide +kernel

/-- **C47** is false as it stands: a truncation that returns `Ok` makes bytes below the limit unreadable. -/
theorem C47_false : (log (fresh [] exName) [.reopen, .write 0 [1, 2] [], .write 2 [3, 4] [], .write 0 [5, 6] [], .write 4 [7] [], .write 4 [8] [], .write 4 [9] [], .read 0 4 [],
      .truncate 4 [], .read 0 4 []]).map (·.2) =
    [.opened, .done (.ok ()), .done (.ok ()), .done (.ok ()), .done (.ok ()), .done (.ok ()), .done (.ok ()), .bytes (.ok [5, 6, 3, 4]),
      .done (.ok ()), .bytes .err] := by
  decide +kernel

/-! ### C48: copy ranges -/

/-- `r`, counted from `start`, is the intersection of the intervals `a` and `b` (specification). -/
def IsIntersection (r : Range) (start : Nat) (a b : Range) : Prop :=
  ∀ p, start + r.1 ≤ p ∧ p < start + r.2 ↔ (a.1 ≤ p ∧ p < a.2) ∧ b.1 ≤ p ∧ p < b.2

/-- **C48** (partial: or `Err`, see the next theorem for when). For all overlapping intervals, the second one shorter than 2^63, `ranges` gives two
ranges of the same length that denote the intersection in the two buffers, and lie in them; or it returns `Err`. It does not panic. -/
theorem C48_exact_partial {src tgt : Range} (ho : overlap src tgt = true) (hs : src.1 ≤ src.2) (ht : tgt.1 ≤ tgt.2) (hl : tgt.2 - tgt.1 < 2 ^ 63) :
    ranges src tgt = .err ∨ ∃ sr tr, ranges src tgt = .ok (sr, tr) ∧ sr.1 ≤ sr.2 ∧ tr.1 ≤ tr.2 ∧ sr.2 - sr.1 = tr.2 - tr.1 ∧ sr.2 ≤ src.2 - src.1 ∧
      tr.2 ≤ tgt.2 - tgt.1 ∧ IsIntersection sr src.1 src tgt ∧ IsIntersection tr tgt.1 src tgt := by
  obtain ⟨s1, s2⟩ := src
  obtain ⟨t1, t2⟩ := tgt
  have ho' := overlap_iff.1 ho
  dsimp only at hs ht ho'
  rcases ranges_cases ho hs ht hl with ⟨e, -⟩ | e
  · exact Or.inl e
  · refine Or.inr ⟨_, _, e, ?_⟩
    dsimp only
    refine ⟨by omega, by omega, by omega, by omega, by omega, fun p => ?_, fun p => ?_⟩
    · dsimp only
      constructor <;> intro <;> omega
    · dsimp only
      constructor <;> intro <;> omega

/-- **C48** (partial). For intervals below 4 GiB it succeeds. -/
theorem C48_succeeds_partial {src tgt : Range} (ho : overlap src tgt = true) (hs : src.1 ≤ src.2) (ht : tgt.1 ≤ tgt.2) (h1 : src.2 < 2 ^ 32)
    (h2 : tgt.2 < 2 ^ 32) : ∃ sr tr, ranges src tgt = .ok (sr, tr) := by
  rcases ranges_cases ho hs ht (by omega) with ⟨e, hn⟩ | e
  · exact absurd ⟨by omega, by omega, by omega, by omega⟩ hn
  · exact ⟨_, _, e⟩

/-- The hypotheses of `C48_exact_partial` and `C48_succeeds_partial` are met. -/
example : overlap (10, 20) (15, 30) = true ∧ ranges (10, 20) (15, 30) = .ok ((5, 10), (0, 5)) := by decide +kernel

/-- **C48** is false for all intervals: an interval of one byte at 2^63. -/
theorem C48_false : overlap (2 ^ 63, 2 ^ 63 + 1) (2 ^ 63, 2 ^ 63 + 1) = true ∧ ranges (2 ^ 63, 2 ^ 63 + 1) (2 ^ 63, 2 ^ 63 + 1) = .err := by decide +kernel

/-- `overlap` and `contains` say what their names say. -/
theorem C48_overlap {a b : Range} (ha : a.1 < a.2) (hb : b.1 < b.2) :
    (overlap a b = true ↔ ∃ p, (a.1 ≤ p ∧ p < a.2) ∧ b.1 ≤ p ∧ p < b.2) ∧
    (contains a b = true ↔ ∀ p, b.1 ≤ p ∧ p < b.2 → a.1 ≤ p ∧ p < a.2) := by
  rw [overlap_iff, contains_iff]
  constructor
  · constructor
    · intro h; exact ⟨max a.1 b.1, by omega, by omega⟩
    · rintro ⟨p, h1, h2⟩; omega
  · constructor
    · intro h p hp; omega
    · intro h
      have h1 := h b.1 (by omega)
      have h2 := h (b.2 - 1) (by omega)
      omega

/-! ### C49: names of chunks -/

/-- **C49** (partial: names of letters, digits, `-`, `_`, `.`). Parsing the request of a chunk gives the chunk for the file with that name, and nothing for any other file. All
numbers below 2^64, also those with more digits than the format pads to. -/
theorem C49_round_trip_partial (hp : Plain name) {level offset len : Nat} (h1 : level < 2 ^ 64) (h2 : offset < 2 ^ 64) (h3 : len < 2 ^ 64) (name' : Name) :
    parseRequest (Chunk.request ⟨level, offset, len⟩ name) name' = if name = name' then some ⟨level, offset, len⟩ else none :=
  parse_request (c := ⟨level, offset, len⟩) hp.ne h1 h2 h3

/-- **C49**: the query alone. -/
theorem C49_query_round_trip {level offset len : Nat} (h1 : level < 2 ^ 64) (h2 : offset < 2 ^ 64) (h3 : len < 2 ^ 64) :
    parseChunk (Chunk.query ⟨level, offset, len⟩) = some ⟨level, offset, len⟩ := parse_query (c := ⟨level, offset, len⟩) h1 h2 h3

/-- The hypotheses are met, by numbers of all sizes. -/
example : Plain exName ∧ Chunk.request ⟨70000, 2 ^ 40, 2 ^ 64 - 1⟩ exName = "/data?11170-10000000000-ffffffffffffffff".toList := by
  refine ⟨exPlain, by decide +kernel⟩

/-- **C49** is false for file names with a question mark: the chunks are stored and not found again. -/
theorem C49_false : parseRequest (Chunk.request ⟨0, 0, 3⟩ "a?b".toList) "a?b".toList = none ∧
    (log (fresh [] "a?b".toList) [.reopen, .write 0 [1, 2, 3] [], .length, .reopen, .length]).map (·.2) =
      [.opened, .done (.ok ()), .num 3, .opened, .num 0] := by decide +kernel

/-! ### C58: append only -/

/-- **C58**. In a file that is only appended to by `put`, for every history of `put`, `get`, reads and reopening with failures of the browser and the page closed at any point: if a `put` of
`d` returned `id`, then `get id` later returns `d` or does not return `Ok`; and it returns `d` if the file is open, the browser does not fail and less than 2 GiB are
stored. -/
theorem C58_get_after_put (hp : Plain name) (hu : Unused cache name) {cs : List Call} (hc : ∀ c ∈ cs, AppendOnly c) {d id : Bytes} {e : Call × Seen}
    (he : e ∈ log (fresh cache name) cs) (hput : PutOk e d id) (evs : List Ev) :
    ((step (run (fresh cache name) cs) (.get id evs)).1 = .bytes (.ok d) ∨ ∀ bs, (step (run (fresh cache name) cs) (.get id evs)).1 ≠ .bytes (.ok bs)) ∧
    ((run (fresh cache name) cs).handle.isSome → Calm evs → reach 0 cs < 2 ^ 31 →
      (step (run (fresh cache name) cs) (.get id evs)).1 = .bytes (.ok d)) := by
  obtain ⟨h1, h2⟩ := winv_fresh hp.ne hu
  obtain ⟨-, h4, h5, -⟩ := log_possible cs h1
  obtain ⟨items, h6, h7⟩ := run_holds cs h1 (holds_fresh hu) hc
  rw [List.nil_append] at h6 h7
  obtain ⟨pre, post, hit, -, hid, hlt⟩ := h7 e he d id hput
  have h5 : (run (fresh cache name) cs).name = name := h5
  have h6 : Holds name (run (fresh cache name) cs).cache items := h6
  unfold step
  cases hh : (run (fresh cache name) cs).handle with
  | none => exact ⟨Or.inr (by simp), fun h => absurd h (by simp)⟩
  | some ch =>
    dsimp only
    rw [hid, if_pos (toBE_length 8 _), ofBE_toBE_lt (by omega)]
    have hi := h4.file hh evs
    rw [hit] at h6
    obtain ⟨evs', r, -, eg, hr⟩ := get_holds (w := ⟨(run (fresh cache name) cs).cache, (run (fresh cache name) cs).name, ch, evs⟩) hi (by rw [h5]; exact h6)
    rw [eg]
    dsimp only
    constructor
    · rcases hr with rfl | ⟨hr, -⟩
      · exact Or.inl rfl
      · exact Or.inr fun bs he => hr bs (Seen.bytes.inj he)
    · intro _ hq hsm
      rcases hr with rfl | ⟨-, hr⟩
      · rfl
      · refine absurd hr ?_
        rintro (hr | hr)
        · exact hr hq
        · refine hr ?_
          have hw := run_within cs (E := 0) (L := 0) h1 (by
            intro c hcm
            obtain ⟨e, hem, hpe⟩ := mem_chunksOf.1 hcm
            have hpe : parseRequest e.1 name = some c := hpe
            rw [hu e hem] at hpe
            exact absurd hpe (by simp))
          have hlen := length_layout (w := ⟨(run (fresh cache name) cs).cache, name, chunksOf (run (fresh cache name) cs).cache name, []⟩) h6.chunks
          rw [← hlen]
          have := length_le_within (w := ⟨(run (fresh cache name) cs).cache, name, chunksOf (run (fresh cache name) cs).cache name, []⟩) hw
          omega

/-- An example: the page is closed in the middle of a `put`; the items are there afterwards, and later ones do not overwrite them. -/
example : (log (fresh exCache exName) [.reopen, .put [1, 2] [], .put [3] [.fail], .put [] [], .put [4, 5] [.crash true], .reopen, .put [6] [], .get [0, 0, 0, 0, 0, 0, 0, 0] [], .get [0, 0, 0, 0, 0, 0, 0, 6] [],
      .get [0, 0, 0, 0, 0, 0, 0, 10] [], .get [0, 0, 0, 0, 0, 0, 0, 16] []]).map (·.2) =
    [.opened, .bytes (.ok [0, 0, 0, 0, 0, 0, 0, 0]), .bytes .err, .bytes (.ok [0, 0, 0, 0, 0, 0, 0, 6]), .bytes .crash, .opened, .bytes (.ok [0, 0, 0, 0, 0, 0, 0, 16]), .bytes (.ok [1, 2]),
      .bytes (.ok []), .bytes (.ok [4, 5]), .bytes (.ok [6])] := by
  decide +kernel

/-- Not so in files that are also written to or truncated: after a truncation, a second `put` overwrites the first one. (That is why C58 is about files that
are only appended to.) -/
theorem C58_only_appended : (log (fresh [] exName) [.reopen, .put [1, 2] [], .put [3] [], .truncate 9 [], .put [4] [], .put [5] [], .get [0, 0, 0, 0, 0, 0, 0, 9] []]).map (·.2) =
    [.opened, .bytes (.ok [0, 0, 0, 0, 0, 0, 0, 0]), .bytes (.ok [0, 0, 0, 0, 0, 0, 0, 6]), .done (.ok ()), .bytes (.ok [0, 0, 0, 0, 0, 0, 0, 9]), .bytes (.ok [0, 0, 0, 0, 0, 0, 0, 9]),
      .bytes (.ok [5])] := by
  decide +kernel

end Radix.Browser
