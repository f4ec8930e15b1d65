import Verif.Proofs.PagedLast

/-
C38..C41: the store that keeps blobs in a paged file.

The theorems speak about histories of calls (`Verif.Paged.Model`): a history starts with an empty file and is a list of calls
`open evs`, `write data evs`, `read id evs` and `lastId`.  `evs` is the schedule of what happens to the calls of the operating system
that one call of the store makes, one after the other: `ok`, `fail n` (an I/O error; a write has written its first `n` bytes before it
fails) or `crash n` (the process dies; a write has written its first `n` bytes).  When the list is used up, everything succeeds.
`log dbg ps fresh ops` is the list of the calls of the history with what each returned, and `run dbg ps fresh ops` the world after it;
`dbg` says if the build has overflow checks and `ps` is the page size.  A call on a store that is not open (never opened, or the process
has died) returns `closed`.

`Wrote e d id`: the entry `e` of the log is a write of `d` that returned `id`.  `NoFault evs`: the schedule has no I/O errors and no crash.
`Small ps op`: blobs that pass the size check of the page have less than `2 ^ 32` bytes.  It holds for all calls when `ps < 2 ^ 32 + 8`.
-/

set_option linter.unusedVariables false

namespace Radix.Paged

variable {dbg : Bool} {ps : Nat}

/-- With pages of less than `2 ^ 32 + 8` bytes, no call is excluded. -/
theorem small_of_page (h : ps < 2 ^ 32 + 8) (op : Op) : Small ps op := fun d evs _ hd => by omega

/-- A history with all kinds of calls: blobs that share a page, one that starts a new page, I/O errors, crashes and reopening. -/
def sampleOps : List Op :=
  [.open [], .write [1, 2, 3] [], .write [4] [], .lastId, .write [5, 6, 7, 8, 9] [.ok, .crash 3], .read [0, 0, 0, 0, 0, 0, 0, 7] [],
   .open [], .read [0, 0, 0, 0, 0, 0, 0, 7] [], .write [10, 11, 12, 13] [.fail 2], .write [] [], .lastId,
   .open [.crash 0], .open [], .lastId, .read [0, 0, 0, 0, 0, 0, 0, 12] []]

/-! ### C38 -/

/-- C38 (partial: blobs of `2 ^ 32` bytes or more are excluded).  At any later time, a read of the id that a write returned returns exactly
the bytes of that write.  (If the read itself meets an I/O error or a crash, it returns that, and never other bytes; a read of a store that
is not open returns nothing.)  Between the two there may be any calls, I/O errors, crashes and reopenings. -/
theorem C38_read_back_partial (h8 : 8 ≤ ps) {ops : List Op} (hs : ∀ op ∈ ops, Small ps op)
    {pre mid post : List (Op × Seen)} {ew : Op × Seen} {d id : Bytes} {evs : List Ev} {r : Seen}
    (hl : log dbg ps fresh ops = pre ++ ew :: mid ++ (.read id evs, r) :: post) (hw : Wrote ew d id) :
    r = .bytes (.ok d) ∨ r = .closed ∨ ¬ NoFault evs ∧ (r = .bytes .err ∨ r = .bytes .crash) := by
  obtain ⟨o1, op, o2, h1, h2, h3, h4⟩ := log_split ops hl
  have hin : ∀ op' ∈ o1, Small ps op' := fun op' ho => hs op' (by rw [h1]; simp [ho])
  have hinv := inv_run (dbg := dbg) h8 o1 hin inv_fresh
  rw [List.nil_append, ← h2] at hinv
  obtain ⟨hf, _⟩ := fine_step (dbg := dbg) h8 hinv op (hs op (by rw [h1]; simp))
  rw [← h3] at hf
  rcases hf with ⟨_, hf⟩ | ⟨x, _, rfl, _, hx⟩
  · exact Or.inr (Or.inl hf)
  · rcases hx ew (by simp) d hw with rfl | ⟨hn, rfl | rfl⟩
    · exact Or.inl rfl
    · exact Or.inr (Or.inr ⟨hn, Or.inl rfl⟩)
    · exact Or.inr (Or.inr ⟨hn, Or.inr rfl⟩)

/-- C38, second part: different writes return different ids, and ids are 8 bytes. -/
theorem C38_fresh_ids_partial (h8 : 8 ≤ ps) {ops : List Op} (hs : ∀ op ∈ ops, Small ps op)
    {pre mid post : List (Op × Seen)} {e1 e2 : Op × Seen} {d1 d2 id1 id2 : Bytes}
    (hl : log dbg ps fresh ops = pre ++ e1 :: mid ++ e2 :: post) (h1 : Wrote e1 d1 id1) (h2 : Wrote e2 d2 id2) :
    id1 ≠ id2 ∧ id1.length = 8 ∧ id2.length = 8 := by
  obtain ⟨o1, op, o2, k1, k2, k3, k4⟩ := log_split ops hl
  have hin : ∀ op' ∈ o1, Small ps op' := fun op' ho => hs op' (by rw [k1]; simp [ho])
  have hinv := inv_run (dbg := dbg) h8 o1 hin inv_fresh
  rw [List.nil_append, ← k2] at hinv
  obtain ⟨hf, _⟩ := fine_step (dbg := dbg) h8 hinv op (hs op (by rw [k1]; simp))
  rw [← k3] at hf
  obtain ⟨evs, rfl⟩ := h2
  rcases hf with ⟨_, hf⟩ | ⟨x, _, hx, _, hid, _⟩
  · cases hf
  · cases hx
    obtain ⟨a, b⟩ := hid id2 rfl
    refine ⟨?_, ?_, a⟩
    · rintro rfl
      exact b e1 (by simp) d1 h1
    · rcases hinv with ⟨_, hn⟩ | ⟨c, H, B, w, _, hsafe, _⟩
      · exact absurd h1 (hn e1 (by simp) d1 id1)
      · exact (hsafe e1 (by simp) d1 id1 h1).1

/-- C38, third part: on an open store, a write of at most `ps - 8` bytes succeeds, unless the calls of the operating system fail or the file
would become larger than the `2 ^ 63 - 1` bytes that a file can have; then it returns that error.  It never panics. -/
theorem C38_write_partial (h8 : 8 ≤ ps) {ops : List Op} (hs : ∀ op ∈ ops, Small ps op) {d : Bytes} {evs : List Ev}
    (hd : d.length < 2 ^ 32) (ho : (run dbg ps fresh ops).store ≠ none) :
    ∃ x, (step dbg ps (run dbg ps fresh ops) (.write d evs)).1 = .bytes x ∧ x ≠ .panic ∧
      (NoFault evs → d.length ≤ ps - 8 → (run dbg ps fresh ops).file.length + ps + d.length + 4 ≤ maxFile → ∃ id, x = .ok id) := by
  have hinv := inv_run (dbg := dbg) h8 ops hs inv_fresh
  obtain ⟨hf, _⟩ := fine_step (dbg := dbg) h8 hinv (.write d evs) (by rintro _ _ h _; cases h; exact hd)
  rcases hf with ⟨hf, _⟩ | ⟨x, _, hx, hp, _, hok⟩
  · exact absurd hf ho
  · exact ⟨x, hx, hp, hok⟩

/-- The history of the examples, evaluated: the store has a page size of 24, all calls are allowed. -/
example : (∀ op ∈ sampleOps, Small 24 op) ∧ log true 24 fresh sampleOps =
  [(.open [], .opened (.ok ())), (.write [1, 2, 3] [], .bytes (.ok [0, 0, 0, 0, 0, 0, 0, 7])),
   (.write [4] [], .bytes (.ok [0, 0, 0, 0, 0, 0, 0, 12])), (.lastId, .lastId (some [0, 0, 0, 0, 0, 0, 0, 12])),
   (.write [5, 6, 7, 8, 9] [.ok, .crash 3], .bytes .crash), (.read [0, 0, 0, 0, 0, 0, 0, 7] [], .closed),
   (.open [], .opened (.ok ())), (.read [0, 0, 0, 0, 0, 0, 0, 7] [], .bytes (.ok [1, 2, 3])),
   (.write [10, 11, 12, 13] [.fail 2], .bytes .err), (.write [] [], .bytes (.ok [0, 0, 0, 0, 0, 0, 0, 18])),
   (.lastId, .lastId (some [0, 0, 0, 0, 0, 0, 0, 18])),
   (.open [.crash 0], .opened .crash), (.open [], .opened (.ok ())), (.lastId, .lastId (some [0, 0, 0, 0, 0, 0, 0, 18])),
   (.read [0, 0, 0, 0, 0, 0, 0, 12] [], .bytes (.ok [4]))] :=
  ⟨fun op _ => small_of_page (by decide) op, by decide +kernel⟩

/-- C38 is false for blobs of `2 ^ 32` bytes: with a page size that allows them, the write succeeds, but the length is stored in 32 bits, and
after reopening the file the read returns an empty blob. -/
theorem C38_false : ∃ id, log dbg (2 ^ 32 + 16) fresh
    [.open [], .write (List.replicate (2 ^ 32) 1) [], .open [], .read id []] =
    [(.open [], .opened (.ok ())), (.write (List.replicate (2 ^ 32) 1) [], .bytes (.ok id)),
     (.open [], .opened (.ok ())), (.read id [], .bytes (.ok []))] := long_blob rfl rfl List.length_replicate

/-! ### C39 -/

theorem long_blob_reopen {n : Nat} (hn : n = 2 ^ 32) {ps : Nat} (hps : ps = n + 16) {d : Bytes} (hdl : d.length = n) :
    ∃ ps ops, ∃ e ∈ log dbg ps fresh ops, ∃ d id, Wrote e d id ∧
    (step dbg ps (run dbg ps fresh (ops ++ [.open []])) (.read id [])).1 = .bytes (.ok []) ∧ d ≠ [] := by
  obtain ⟨id, h⟩ := long_blob (dbg := dbg) hn hps hdl
  refine ⟨ps, [.open [], .write d []], (.write d [], .bytes (.ok id)), ?_, d, id, ⟨[], rfl⟩, ?_, fun he => ?_⟩
  · simp only [log, List.cons.injEq, Prod.mk.injEq] at h ⊢
    rw [h.2.1.2]; simp
  · simp only [log, List.cons.injEq, Prod.mk.injEq] at h
    exact h.2.2.2.1.2
  · subst he
    simp only [List.length_nil] at hdl
    omega

/-- C39 is false for blobs of `2 ^ 32` bytes: the write returns an id, and after reopening the file, without any crash or error, the id reads
back as other bytes. -/
theorem C39_false : ∃ ps ops, ∃ e ∈ log dbg ps fresh ops, ∃ d id, Wrote e d id ∧
    (step dbg ps (run dbg ps fresh (ops ++ [.open []])) (.read id [])).1 = .bytes (.ok []) ∧ d ≠ [] :=
  long_blob_reopen rfl rfl (List.length_replicate (a := 1))

/-- C39 (partial: blobs of `2 ^ 32` bytes or more and files of `2 ^ 62` bytes or more are excluded).  After any history, with crashes and
I/O errors at any points, reopening the file succeeds; after it, every id that a write returned reads back the bytes of that write, and
new writes succeed and read back. -/
theorem C39_recovery_partial (h8 : 8 ≤ ps) (hm : ps % 8 = 0) {ops : List Op} (hs : ∀ op ∈ ops, Small ps op)
    (hf : (run dbg ps fresh ops).file.length < 2 ^ 62) :
    (step dbg ps (run dbg ps fresh ops) (.open [])).1 = .opened (.ok ()) ∧
    (∀ e ∈ log dbg ps fresh ops, ∀ d id, Wrote e d id →
      (step dbg ps (run dbg ps fresh (ops ++ [.open []])) (.read id [])).1 = .bytes (.ok d)) ∧
    (∀ d, d.length ≤ ps - 8 → d.length < 2 ^ 32 → ps < 2 ^ 61 → ∃ id,
      (step dbg ps (run dbg ps fresh (ops ++ [.open []])) (.write d [])).1 = .bytes (.ok id) ∧
      (step dbg ps (run dbg ps fresh (ops ++ [.open [], .write d []])) (.read id [])).1 = .bytes (.ok d)) := by
  have hnil : NoFault [] := by intro e he; cases he
  have hinv := inv_run (dbg := dbg) h8 ops hs inv_fresh
  rw [List.nil_append] at hinv
  have hsm : ∀ op, (∀ d evs, op ≠ Op.write d evs) → Small ps op := fun op ho d evs h => absurd h (ho d evs)
  obtain ⟨⟨x, hx, _, hok⟩, hinv1⟩ := fine_step (dbg := dbg) h8 hinv (.open []) (hsm _ (by simp))
  have hx' := hok hnil hm hf
  subst hx'
  have hlen := open_size (dbg := dbg) hinv hf hx
  have hopen := open_store hx
  rw [hx] at hinv1
  simp only [run_append, run]
  refine ⟨hx, fun e he d id hw => ?_, fun d hd h32 hlt => ?_⟩
  · obtain ⟨hr, _⟩ := fine_step (dbg := dbg) h8 hinv1 (.read id []) (hsm _ (by simp))
    rcases hr with ⟨hr, _⟩ | ⟨y, _, hy, _, hall⟩
    · exact absurd hr hopen
    · rcases hall e (by simp [he]) d hw with rfl | ⟨hn, _⟩
      · exact hy
      · exact absurd hnil hn
  · obtain ⟨hr, hinv2⟩ := fine_step (dbg := dbg) h8 hinv1 (.write d []) (by rintro _ _ h _; cases h; exact h32)
    rcases hr with ⟨hr, _⟩ | ⟨y, _, hy, _, _, hyok⟩
    · exact absurd hr hopen
    obtain ⟨id, rfl⟩ := hyok hnil hd (by simp only [maxFile]; omega)
    refine ⟨id, hy, ?_⟩
    have hopen2 := write_store hy
    rw [hy] at hinv2
    obtain ⟨hr, _⟩ := fine_step (dbg := dbg) h8 hinv2 (.read id []) (hsm _ (by simp))
    rcases hr with ⟨hr, _⟩ | ⟨z, _, hz, _, hall⟩
    · exact absurd hr hopen2
    · rcases hall _ (List.mem_append_right _ List.mem_cons_self) d ⟨[], rfl⟩ with rfl | ⟨hn, _⟩
      · exact hz
      · exact absurd hnil hn

/-- C39: opening the file never panics, whatever happened before and whatever happens to its file operations. -/
theorem C39_open_no_panic_partial (h8 : 8 ≤ ps) {ops : List Op} (hs : ∀ op ∈ ops, Small ps op) (evs : List Ev) :
    (step dbg ps (run dbg ps fresh ops) (.open evs)).1 ≠ .opened .panic := by
  have hinv := inv_run (dbg := dbg) h8 ops hs inv_fresh
  obtain ⟨⟨x, hx, hp, _⟩, _⟩ := fine_step (dbg := dbg) h8 hinv (.open evs) (fun d evs h => by cases h)
  rw [hx]
  intro h; cases h; exact hp rfl

/-- The hypotheses of `C39_recovery_partial` are met by a history that ends in a crash in the middle of a write, with writes before it. -/
example : (∀ op ∈ sampleOps.take 5, Small 24 op) ∧ (run true 24 fresh (sampleOps.take 5)).file.length = 4096 + 20 ∧
    (run true 24 fresh (sampleOps.take 5)).store.isNone ∧
    Wrote ((log true 24 fresh (sampleOps.take 5))[2]'(by decide +kernel)) [4] [0, 0, 0, 0, 0, 0, 0, 12] :=
  ⟨fun op _ => small_of_page (by decide) op, by decide +kernel, by decide +kernel, [], by decide +kernel⟩

/-! ### C40 -/

/-- C40 (partial: histories in which a write is interrupted after the last one that succeeded are excluded, see `C40_false`).  If a write
returned `id` and after it there were only reads, calls of `last_id`, reopenings (also ones that failed or crashed) and refused writes, then
`last_id` returns `id`. -/
theorem C40_last_write_partial (h8 : 8 ≤ ps) {ops rest : List Op} {d id : Bytes} {evs : List Ev} (hs : ∀ op ∈ ops, Small ps op)
    (hd : d.length < 2 ^ 32)
    (hw : (step dbg ps (run dbg ps fresh ops) (.write d evs)).1 = .bytes (.ok id))
    (hr : ∀ op ∈ rest, ∀ d' evs', op = .write d' evs' → ps - 8 < d'.length) :
    (step dbg ps (run dbg ps fresh (ops ++ .write d evs :: rest)) .lastId).1 = .closed ∨
    (step dbg ps (run dbg ps fresh (ops ++ .write d evs :: rest)) .lastId).1 = .lastId (some id) := by
  have hinv := inv_run (dbg := dbg) h8 ops hs inv_fresh
  obtain ⟨hc, hi, h0⟩ := clean_write (dbg := dbg) h8 (by rintro _ _ h _; cases h; exact hd) hinv hw
  have hc := clean_run (dbg := dbg) h8 rest hr hc
  simp only [run_append, run]
  generalize run dbg ps (step dbg ps (run dbg ps fresh ops) (.write d evs)).2 rest = W at hc
  obtain ⟨H, B, w, _, _, _, hst | ⟨hst, hl⟩⟩ := hc
  · left; simp only [step, hst]
  · right; simp only [step, hst, lastIdOf, hl, if_neg h0, ← hi]

/-- The hypotheses are met. -/
example : (step true 24 (run true 24 fresh (sampleOps.take 2)) (.write [4] [])).1 = .bytes (.ok [0, 0, 0, 0, 0, 0, 0, 12]) ∧
    (step true 24 (run true 24 fresh (sampleOps.take 2 ++ .write [4] [] ::
      [.write (List.replicate 17 0) [], .open [.crash 0], .open [], .read [0, 0, 0, 0, 0, 0, 0, 7] []])) .lastId).1 =
      .lastId (some [0, 0, 0, 0, 0, 0, 0, 12]) := by decide +kernel

/-- C40 (partial), for all histories, also with interrupted writes: `last_id` never goes back behind a write that completed. -/
theorem C40_not_before_partial (h8 : 8 ≤ ps) {ops : List Op} (hs : ∀ op ∈ ops, Small ps op) {e : Op × Seen} {d id : Bytes}
    (he : e ∈ log dbg ps fresh ops) (hw : Wrote e d id) :
    (step dbg ps (run dbg ps fresh ops) .lastId).1 = .closed ∨
    ∃ i, (step dbg ps (run dbg ps fresh ops) .lastId).1 = .lastId (some i) ∧ i.length = 8 ∧ ofBE id ≤ ofBE i := by
  have hinv := inv_run (dbg := dbg) h8 ops hs inv_fresh
  have hlow := low_run (dbg := dbg) h8 ops hs inv_fresh (fun s hs => by cases hs)
  rw [List.nil_append] at hinv hlow
  rcases hinv with ⟨_, hn⟩ | ⟨c, H, B, w, hat, hsafe, _, hst⟩
  · exact absurd hw (hn e he d id)
  · rcases hst with hst | hst
    · left; simp only [step, hst]
    · right
      have h1 := hlow w hst e he d id hw
      have h2 := (rec_size (hsafe e he d id hw).2.2.1).1
      have h3 := hat.last
      have h4 := hat.max
      simp only [maxFile] at h4
      refine ⟨toBE 8 w.lastId, ?_, toBE_length _ _, ?_⟩
      · simp only [step, hst, lastIdOf, if_neg (show w.lastId ≠ 0 by omega)]
      · rw [ofBE_toBE_lt (by omega)]; exact h1

/-- C40 is false: if the process dies in a write that had to begin a new page, after the padding of the old page was committed, then after
reopening `last_id` returns an id that no write returned, and reading it is an error. -/
theorem C40_false : log true 24 fresh [.open [], .write [1, 2, 3] [], .write (List.replicate 16 4) [.ok, .ok, .ok, .crash 0],
      .open [], .lastId, .read [0, 0, 0, 0, 0, 0, 0, 24] [], .read [0, 0, 0, 0, 0, 0, 0, 7] []] =
    [(.open [], .opened (.ok ())), (.write [1, 2, 3] [], .bytes (.ok [0, 0, 0, 0, 0, 0, 0, 7])),
     (.write (List.replicate 16 4) [.ok, .ok, .ok, .crash 0], .bytes .crash), (.open [], .opened (.ok ())),
     (.lastId, .lastId (some [0, 0, 0, 0, 0, 0, 0, 24])), (.read [0, 0, 0, 0, 0, 0, 0, 24] [], .bytes .err),
     (.read [0, 0, 0, 0, 0, 0, 0, 7] [], .bytes (.ok [1, 2, 3]))] := by decide +kernel

/-! ### C41 -/

/-- C41: a write of more than `ps - 8` bytes returns an error and changes nothing: whatever is called afterwards returns what it would have
returned without that write.  Holds in every state. -/
theorem C41_write_too_large (h8 : 8 ≤ ps) {W : World} {s : Inner} (hs : W.store = some s) (hp : s.pageSize = ps)
    (hf : W.file = s.data) {d : Bytes} (hd : ps - 8 < d.length) (evs : List Ev) :
    (step dbg ps W (.write d evs)).1 = .bytes .err ∧ (step dbg ps W (.write d evs)).2.file = W.file ∧
    ∀ ops, log dbg ps (step dbg ps W (.write d evs)).2 ops = log dbg ps W ops := too_large h8 hs hp hf hd evs

/-- Every history that leaves the store open meets the hypotheses of `C41_write_too_large`. -/
theorem C41_write_too_large_reachable (h8 : 8 ≤ ps) {ops : List Op} (hs : ∀ op ∈ ops, Small ps op)
    {s : Inner} (ho : (run dbg ps fresh ops).store = some s) :
    s.pageSize = ps ∧ (run dbg ps fresh ops).file = s.data := by
  rcases inv_run (dbg := dbg) h8 ops hs inv_fresh with ⟨h, _⟩ | ⟨c, H, B, w, hat, _, hf, hst⟩
  · rw [h] at ho; cases ho
  · rcases hst with hst | hst <;> rw [ho] at hst
    · cases hst
    · cases hst; exact ⟨hat.psz, hf⟩

example : (step true 24 (run true 24 fresh (sampleOps.take 2)) (.write (List.replicate 17 0) [])).1 = .bytes .err := by
  decide +kernel

/-- C41 (partial): after any history, a read of 8 bytes does not panic, in builds without overflow checks for all ids, and in builds with
overflow checks for all ids but 0 and the last 4096. -/
theorem C41_read_partial (h8 : 8 ≤ ps) {ops : List Op} (hs : ∀ op ∈ ops, Small ps op) {id : Bytes} (hid : id.length = 8)
    (hd : dbg = false ∨ 1 ≤ ofBE id ∧ ofBE id + 4096 < 2 ^ 64) (evs : List Ev) :
    (step dbg ps (run dbg ps fresh ops) (.read id evs)).1 ≠ .bytes .panic := by
  have hinv := inv_run (dbg := dbg) h8 ops hs inv_fresh
  obtain ⟨hf, _⟩ := fine_step (dbg := dbg) h8 hinv (.read id evs) (fun d evs h => by cases h)
  rcases hf with ⟨_, hf⟩ | ⟨x, _, hx, hp, _⟩
  · rw [hf]; simp
  · rw [hx]; intro h; cases h; exact hp hid hd rfl

/-- Ids that no write returned give an error, or what the bytes before that place in the file (for the last one: of the header) look like. -/
example : (step false 24 (run false 24 fresh (sampleOps.take 3)) (.read [0, 0, 0, 0, 0, 0, 0, 0] [])).1 = .bytes .err ∧
    (step false 24 (run false 24 fresh (sampleOps.take 3)) (.read [255, 255, 255, 255, 255, 255, 255, 255] [])).1 = .bytes (.ok []) ∧
    (step true 24 (run true 24 fresh (sampleOps.take 3)) (.read [0, 0, 0, 0, 0, 0, 0, 99] [])).1 = .bytes .err := by
  decide +kernel

/-- C41 is false: in builds with overflow checks reading the id 0 panics, and so do the last 4096 ids; in all builds an id of
another length panics. -/
theorem C41_read_false :
    (step true 24 (run true 24 fresh (sampleOps.take 3)) (.read [0, 0, 0, 0, 0, 0, 0, 0] [])).1 = .bytes .panic ∧
    (step true 24 (run true 24 fresh (sampleOps.take 3)) (.read [255, 255, 255, 255, 255, 255, 240, 0] [])).1 = .bytes .panic ∧
    (step false 24 (run false 24 fresh (sampleOps.take 3)) (.read [7] [])).1 = .bytes .panic := by decide +kernel

end Radix.Paged
