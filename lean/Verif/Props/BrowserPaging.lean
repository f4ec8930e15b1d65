import Verif.Proofs.BrowserPagingLost

/-
C50, C51 and C60: `PagingFile`, the store with pages in memory on top of a file of the browser file system.

A session begins with `openPaging` (opening the store on an open file, with a page size and a list of what will happen to the cache operations) and goes on with calls of
`put` (write a blob, giving an id), `get` (read a blob) and `sync`.
-/

set_option linter.unusedVariables false

namespace Radix.Browser.Paging
open Radix.Browser
open Radix.Spec (Unused)

variable {cache : Cache} {name : Name}

/-! ### C50 -/

/-- **C50** (partial: for blobs of less than the page size minus 8 bytes). In every session on a file with any contents, with any calls and any failures of the browser in between (also
blobs that are too large): if a `put` of `d` returned `id`, then `get id` later returns `d`. (A session ends when a call panics or does not return; then there is no later `get`.) -/
theorem C50_get_after_put_partial {file : World} {coming : List (List Ev)} {ps : Nat} {w0 w : Inner} (h8 : 8 ∣ ps) (ho : openPaging file coming ps = some w0) {cs : List PCall}
    {d id : Bytes} (hput : (.put d, .bytes (.ok id)) ∈ plog w0 cs) (hd : d.length + 8 < ps) (hr : prun w0 cs = some w) : (pstep w (.get id)).1 = .bytes (.ok d) := by
  obtain ⟨hb, hps⟩ := open_base h8 ho
  obtain ⟨hb', -, h⟩ := prun_keeps cs hb hr
  obtain ⟨s, h1, h2, h3, h4⟩ := h d id hput (by rw [hps]; exact hd)
  have e : ofBE id = s := by rw [h1]; exact ofBE_toBE_lt (by omega)
  unfold pstep
  dsimp only
  rw [if_pos (by rw [h1, toBE_length]), e, load_in hb' h3 h4]

/-- A session with pages of 32 bytes, on a file that is empty: three pages, a `sync` that fails, a blob that is too large. -/
def exFile : World := run (fresh exCache exName) [.reopen]

/-- What happens to the cache operations: nothing bad until the sixth call on the file. -/
def exComing : List (List Ev) := [[], [], [.fail]]

/-- The calls of the session. -/
def exSession : List PCall := [.put [1, 2], .put [3], .sync, .put [4, 5, 6, 7, 8, 9, 10, 11, 12, 13], .put (List.replicate 40 0), .put [], .sync, .get [0, 0, 0, 0, 0, 0, 0, 36]]

/-- The hypotheses of `C50_get_after_put_partial` are met. -/
example : ((openPaging exFile exComing 32).bind fun w => prun w exSession).isSome ∧ ((openPaging exFile exComing 32).map fun w => (plog w exSession).map (·.2)) =
    some [.bytes (.ok [0, 0, 0, 0, 0, 0, 0, 4]), .bytes (.ok [0, 0, 0, 0, 0, 0, 0, 12]), .done .err, .bytes (.ok [0, 0, 0, 0, 0, 0, 0, 36]), .bytes .err,
      .bytes (.ok [0, 0, 0, 0, 0, 0, 0, 52]), .done (.ok ()), .bytes (.ok [4, 5, 6, 7, 8, 9, 10, 11, 12, 13])] := by decide +kernel

/-- **C50** is false for blobs of the page size minus 8 bytes: the blob fills the page to its end, the page is never written, and loading fails;
once a later page has been written, loading returns an empty blob instead. -/
theorem C50_false : ((openPaging exFile [] 16).map fun w => (plog w [.put [1, 2, 3, 4, 5, 6, 7, 8], .get [0, 0, 0, 0, 0, 0, 0, 20], .put [9], .sync, .get [0, 0, 0, 0, 0, 0, 0, 20]]).map (·.2)) =
    some [.bytes (.ok [0, 0, 0, 0, 0, 0, 0, 20]), .bytes .err, .bytes (.ok [0, 0, 0, 0, 0, 0, 0, 36]), .done (.ok ()), .bytes (.ok [])] := by decide +kernel

/-! ### C51 -/

/-- **C51** (partial: for blobs of more than the page size minus 4 bytes). In every session: `put` of a blob that, with the 4 bytes of its length, is larger than a page returns `Err` and changes
nothing. -/
theorem C51_too_large_partial {file : World} {coming : List (List Ev)} {ps : Nat} {w0 w : Inner} (h8 : 8 ∣ ps) (ho : openPaging file coming ps = some w0) {cs : List PCall}
    (hr : prun w0 cs = some w) {d : Bytes} (hd : ps < d.length + 4) (h32 : d.length < 2 ^ 32) : pstep w (.put d) = (.bytes .err, some w) := by
  obtain ⟨hb, hps⟩ := open_base h8 ho
  obtain ⟨hb', hk, h⟩ := prun_keeps cs hb hr
  have hl : (toBE 4 d.length ++ d).length = d.length + 4 := by rw [List.length_append, toBE_length]; omega
  have e0 : ∀ {α : Type} (w : Inner) (f : Inner → P α), (Paging.self >>= f) w = f w w := fun w f => pbind_ok rfl
  have e : appendPrefixed d w = (.err, w) := by
    unfold appendPrefixed append
    rw [if_pos h32, e0]
    have : decide ((toBE 4 d.length ++ d).length ≤ w.pageSize) = false := by
      rw [hl, hk.1, hps]; exact decide_eq_false (by omega)
    rw [this]
    rfl
  unfold pstep
  dsimp only
  rw [e]

/-- **C51**: blobs of more than the page size minus 8 bytes are never accepted. -/
theorem C51_never_accepted_partial {file : World} {coming : List (List Ev)} {ps : Nat} {w0 w : Inner} (h8 : 8 ∣ ps) (ho : openPaging file coming ps = some w0) {cs : List PCall}
    (hr : prun w0 cs = some w) {d : Bytes} (hd : ps < d.length + 8) (id : Bytes) : (pstep w (.put d)).1 ≠ .bytes (.ok id) := by
  obtain ⟨hb, hps⟩ := open_base h8 ho
  obtain ⟨hb', hk, h⟩ := prun_keeps cs hb hr
  have hps' : w.pageSize = ps := by rw [hk.1, hps]
  have hl : (toBE 4 d.length ++ d).length = d.length + 4 := by rw [List.length_append, toBE_length]; omega
  have h1 : Tri (fun v => v = w) (appendPrefixed d) (fun _ _ => False) (fun _ => True) := by
    unfold appendPrefixed
    split
    · unfold append
      refine Tri.bind_self ?_
      refine Tri.bind (Tri.ensure fun w h _ => trivial) fun _ => ?_
      refine Tri.intro fun w' h => ?_
      obtain ⟨h1, rfl⟩ := h
      have h1 : (toBE 4 d.length ++ d).length ≤ w'.pageSize := by simpa using h1
      have hs := hb'.small
      refine Tri.bind_ok (a := (toBE 4 d.length ++ d).length + 8) (by unfold u64; rw [if_pos (by omega)]) ?_
      refine Tri.bind_self ?_
      by_cases h64 : w'.length / w'.pageSize * w'.pageSize + w'.pageSize < 2 ^ 64
      · refine Tri.bind_ok (a := w'.length / w'.pageSize * w'.pageSize + w'.pageSize - w'.length) (by unfold remaining; rw [pageRange_eq hb'.pos, if_pos h64]; rfl) ?_
        have hle := Nat.div_mul_le_self w'.length w'.pageSize
        rw [if_pos (by omega)]
        refine Tri.bind ((closePage_tri w' hb').weaken (fun _ h => h) (fun _ v h => closed_keeps hb' h) fun _ _ => trivial) fun _ => ?_
        refine Tri.intro fun v hv => ?_
        obtain ⟨hv1, hv2, hv3⟩ := hv
        refine Tri.bind (alignLength_tri v) fun _ => ?_
        refine Tri.bind_self ?_
        dsimp only
        by_cases h64' : aligned v.length / v.pageSize * v.pageSize + v.pageSize < 2 ^ 64
        · refine Tri.bind_ok (by rw [within_eq hv1.pos hv1.small, if_pos h64']) ?_
          obtain ⟨k, hk', h2, h3, h4⟩ := aligned_spec hv1 (n := (toBE 4 d.length ++ d).length) (by omega) (Or.inr hv3)
          have := hv1.last
          have := hv2.1
          rw [if_neg (by omega)]
          exact Tri.panic
        · exact Tri.bind_panic (by rw [within_eq hv1.pos hv1.small, if_neg h64'])
      · exact Tri.bind_panic (by unfold remaining; rw [pageRange_eq hb'.pos, if_neg h64]; rfl)
    · exact Tri.panic
  obtain ⟨h1, -⟩ := tri_apply h1
  unfold pstep
  dsimp only
  split
  · rename_i n v e
    exact (h1 _ _ e).elim
  all_goals simp

/-- The hypotheses are met. -/
example : ((openPaging exFile [] 16).bind fun w => prun w [.put [1]]).isSome ∧ ((openPaging exFile [] 16).map fun w => (plog w [.put [1], .put (List.replicate 13 0), .get [0, 0, 0, 0, 0, 0, 0, 4]]).map (·.2)) =
    some [.bytes (.ok [0, 0, 0, 0, 0, 0, 0, 4]), .bytes .err, .bytes (.ok [1])] := by decide +kernel

/-- **C51** is false for the sizes in between: `put` panics. -/
theorem C51_false : ∀ n, n ∈ [9, 10, 11, 12] → ((openPaging exFile [] 16).map fun w => (plog w [.put (List.replicate n 0)]).map (·.2)) = some [.bytes .panic] := by decide +kernel

/-! ### C60 -/

/-- **C60** (partial: one session on a new file, with a single `sync` at its end). If all calls of `put` returned an id, and `sync` returned `Ok`, then the file can be opened again (when the browser
does not fail, with less than 2 GiB in the file), its store opens, and `get` returns every blob that was put. -/
theorem C60_one_sync_partial (hp : Plain name) (hu : Unused cache name) {ps : Nat} (h8 : 8 ∣ ps) {coming : List (List Ev)} {w0 w1 w2 : Inner}
    (ho : openPaging (run (fresh cache name) [.reopen]) coming ps = some w0) {cs : List PCall} (hc : ∀ c ∈ cs, c ≠ .sync)
    (hok : ∀ d, (.put d, .bytes .err) ∉ plog w0 cs) (hr : prun w0 cs = some w1) (hs : pstep w1 .sync = (.done (.ok ()), some w2)) (hsize : w1.length < 2 ^ 31) :
    ∃ w3, openPaging (step w2.file .reopen).2 [] ps = some w3 ∧
      ∀ d id, (.put d, .bytes (.ok id)) ∈ plog w0 cs → d.length + 8 < ps → (pstep w3 (.get id)).1 = .bytes (.ok d) := by
  obtain ⟨hb, hps⟩ := open_base h8 ho
  obtain ⟨hb', hk, h⟩ := prun_keeps cs hb hr
  have ht := prun_tracked hp hu cs hb (open_tracked hp hu ho) hr hc hok
  obtain ⟨w3, h1, h2⟩ := reopened_load hp hu hb' ht.fine hs hsize
  have hps' : w1.pageSize = ps := by rw [hk.1, hps]
  rw [hps'] at h1
  refine ⟨w3, h1, fun d id hm hd => ?_⟩
  obtain ⟨s, c1, c2, c3, c4⟩ := h d id hm (by rw [hps]; exact hd)
  have e : ofBE id = s := by rw [c1]; exact ofBE_toBE_lt (by omega)
  have e2 := h2 s d c3 c4
  unfold pstep
  dsimp only
  rw [if_pos (by rw [c1, toBE_length]), e]
  rcases hl : loadPrefixed s w3 with ⟨x, v⟩
  rw [hl] at e2
  have e2 : x = .ok d := e2
  rw [e2]

/-- The calls of a session without `sync`. -/
def exPuts : List PCall := [.put [1, 2], .put [3], .put [4, 5, 6, 7, 8, 9, 10, 11, 12, 13], .put [], .get [0, 0, 0, 0, 0, 0, 0, 4]]

/-- The hypotheses of `C60_one_sync_partial` are met: the session, the `sync`, and what `get` returns after opening again. -/
example : (openPaging exFile [] 32).isSome ∧ ((openPaging exFile [] 32).map fun w => (plog w exPuts).map (·.2)) =
      some [.bytes (.ok [0, 0, 0, 0, 0, 0, 0, 4]), .bytes (.ok [0, 0, 0, 0, 0, 0, 0, 12]), .bytes (.ok [0, 0, 0, 0, 0, 0, 0, 36]), .bytes (.ok [0, 0, 0, 0, 0, 0, 0, 52]), .bytes (.ok [1, 2])] ∧
    (((openPaging exFile [] 32).bind fun w => prun w exPuts).map fun w => ((pstep w .sync).1, w.length)) = some (.done (.ok ()), 56) ∧
    (((((openPaging exFile [] 32).bind fun w => prun w exPuts).bind fun w => (pstep w .sync).2).bind fun w => openPaging (step w.file .reopen).2 [] 32).map fun w =>
      [[0, 0, 0, 0, 0, 0, 0, 4], [0, 0, 0, 0, 0, 0, 0, 12], [0, 0, 0, 0, 0, 0, 0, 36], [0, 0, 0, 0, 0, 0, 0, 52]].map fun id => (pstep w (.get id)).1) =
      some [.bytes (.ok [1, 2]), .bytes (.ok [3]), .bytes (.ok [4, 5, 6, 7, 8, 9, 10, 11, 12, 13]), .bytes (.ok [])] := by decide +kernel

theorem prun_append : ∀ (a b : List PCall) (w : Inner), prun w (a ++ b) = (prun w a).bind fun v => prun v b
  | [], b, w => rfl
  | c :: a, b, w => by
    show ((pstep w c).2.bind fun w => prun w (a ++ b)) = ((pstep w c).2.bind fun w => prun w a).bind fun v => prun v b
    cases (pstep w c).2 with
    | none => rfl
    | some v => exact prun_append a b v

/-- **C60** (partial: one session on a new file, with any number of `sync` as long as no page is finished after the first one). Let a session without `sync` be followed by any calls of `put`, `get` and
`sync`, so that no `put` and no `sync` returned `Err` and the page that is being filled stays the same, and then by a `sync` that returned `Ok`. Then the file can be opened again (when the browser does not
fail, with less than 2 GiB in the file), its store opens, and `get` returns every blob that was put. -/
theorem C60_same_page_partial (hp : Plain name) (hu : Unused cache name) {ps : Nat} (h8 : 8 ∣ ps) {coming : List (List Ev)} {w0 w1 w2 w3 : Inner}
    (ho : openPaging (run (fresh cache name) [.reopen]) coming ps = some w0) {cs cs' : List PCall} (hc : ∀ c ∈ cs, c ≠ .sync)
    (hok : ∀ d, (.put d, .bytes .err) ∉ plog w0 cs) (hr : prun w0 cs = some w1)
    (hok' : ∀ d, (.put d, .bytes .err) ∉ plog w1 cs') (hsync : (.sync, .done .err) ∉ plog w1 cs') (hr' : prun w1 cs' = some w2)
    (hpage : ∀ a b w, cs' = a ++ b → prun w1 a = some w → w.length / ps = w1.length / ps)
    (hs : pstep w2 .sync = (.done (.ok ()), some w3)) (hsize : w2.length < 2 ^ 31) :
    ∃ w4, openPaging (step w3.file .reopen).2 [] ps = some w4 ∧
      ∀ d id, (.put d, .bytes (.ok id)) ∈ plog w0 (cs ++ cs') → d.length + 8 < ps → (pstep w4 (.get id)).1 = .bytes (.ok d) := by
  obtain ⟨hb, hps⟩ := open_base h8 ho
  obtain ⟨hb1, hk1, -⟩ := prun_keeps cs hb hr
  have hps1 : w1.pageSize = ps := by rw [hk1.1, hps]
  have hr2 : prun w0 (cs ++ cs') = some w2 := by rw [prun_append cs cs' w0, hr]; exact hr'
  obtain ⟨hb2, hk2, h⟩ := prun_keeps _ hb hr2
  have hps2 : w2.pageSize = ps := by rw [hk2.1, hps]
  have ht1 := prun_tracked hp hu cs hb (open_tracked hp hu ho) hr hc hok
  have ht2 := prun_fine hp hu cs' hb1 ht1.fine hr' hok' hsync fun a b v hab hv => by
    have := (prun_keeps a hb1 hv).2.1.1
    rw [this, hps1]
    exact hpage a b v hab hv
  obtain ⟨w4, h1, h2⟩ := reopened_load hp hu hb2 ht2 hs hsize
  rw [hps2] at h1
  refine ⟨w4, h1, fun d id hm hd => ?_⟩
  obtain ⟨s, c1, c2, c3, c4⟩ := h d id hm (by rw [hps]; exact hd)
  have e : ofBE id = s := by rw [c1]; exact ofBE_toBE_lt (by omega)
  have e2 := h2 s d c3 c4
  unfold pstep
  dsimp only
  rw [if_pos (by rw [c1, toBE_length]), e]
  rcases hl : loadPrefixed s w4 with ⟨x, v⟩
  rw [hl] at e2
  have e2 : x = .ok d := e2
  rw [e2]

/-- Calls with two `sync` and a blob after each of them, on the page that is being filled after `exPuts2`. -/
def exSamePage : List PCall := [.sync, .put [6], .sync, .put [7, 8]]

/-- The calls before: one page is finished. -/
def exPuts2 : List PCall := [.put [1, 2], .put [3], .put (List.replicate 36 9)]

/-- The hypotheses of `C60_same_page_partial` are met, with pages of 64 bytes: the page stays the same through all calls, and what `get` returns after opening again. -/
example : ((openPaging exFile [] 64).map fun w => (plog w (exPuts2 ++ exSamePage)).map (·.2)) =
      some [.bytes (.ok [0, 0, 0, 0, 0, 0, 0, 4]), .bytes (.ok [0, 0, 0, 0, 0, 0, 0, 12]), .bytes (.ok [0, 0, 0, 0, 0, 0, 0, 68]), .done (.ok ()), .bytes (.ok [0, 0, 0, 0, 0, 0, 0, 108]), .done (.ok ()),
        .bytes (.ok [0, 0, 0, 0, 0, 0, 0, 116])] ∧
    (((openPaging exFile [] 64).bind fun w => prun w exPuts2).map fun w => [0, 1, 2, 3, 4].map fun n => (prun w (exSamePage.take n)).map (·.length / 64)) = some [some 1, some 1, some 1, some 1, some 1] ∧
    (((openPaging exFile [] 64).bind fun w => prun w (exPuts2 ++ exSamePage)).map fun w => ((pstep w .sync).1, w.length)) = some (.done (.ok ()), 122) ∧
    (((((openPaging exFile [] 64).bind fun w => prun w (exPuts2 ++ exSamePage)).bind fun w => (pstep w .sync).2).bind fun w => openPaging (step w.file .reopen).2 [] 64).map fun w =>
      [[0, 0, 0, 0, 0, 0, 0, 4], [0, 0, 0, 0, 0, 0, 0, 12], [0, 0, 0, 0, 0, 0, 0, 108], [0, 0, 0, 0, 0, 0, 0, 116]].map fun id => (pstep w (.get id)).1) =
      some [.bytes (.ok [1, 2]), .bytes (.ok [3]), .bytes (.ok [6]), .bytes (.ok [7, 8])] := by decide +kernel

/-- **C60** is false in every session of this kind. Let a session on a new file begin as in `C60_same_page_partial`, with the last `sync` on a page that has something on it; then let calls without `sync`
follow, in which this page is finished, and one more `sync`. Let all calls of `put` and `sync` return without `Err`. Then the store can be opened again, and `get` returns the blobs up to the page of the
earlier `sync`, but `Err` for every blob that was put on a later page, however many there are, although a `sync` that returned `Ok` came after it. -/
theorem C60_lost (hp : Plain name) (hu : Unused cache name) {ps : Nat} (h8 : 8 ∣ ps) {coming : List (List Ev)} {w0 w1 w2 w3 w4 w5 : Inner}
    (ho : openPaging (run (fresh cache name) [.reopen]) coming ps = some w0) {cs cs' cs'' : List PCall} (hc : ∀ c ∈ cs, c ≠ .sync)
    (hok : ∀ d, (.put d, .bytes .err) ∉ plog w0 cs) (hr : prun w0 cs = some w1)
    (hok' : ∀ d, (.put d, .bytes .err) ∉ plog w1 cs') (hsync : (.sync, .done .err) ∉ plog w1 cs') (hr' : prun w1 cs' = some w2)
    (hpage : ∀ a b w, cs' = a ++ b → prun w1 a = some w → w.length / ps = w1.length / ps)
    (hs : pstep w2 .sync = (.done (.ok ()), some w3)) (hne : w2.length % ps ≠ 0)
    (hc'' : ∀ c ∈ cs'', c ≠ .sync) (hok'' : ∀ d, (.put d, .bytes .err) ∉ plog w3 cs'') (hr'' : prun w3 cs'' = some w4)
    (hpage'' : w4.length / ps ≠ w2.length / ps) (hs'' : pstep w4 .sync = (.done (.ok ()), some w5)) (hsize : w4.length < 2 ^ 31) :
    ∃ w6, openPaging (step w5.file .reopen).2 [] ps = some w6 ∧
      ∀ d id, (.put d, .bytes (.ok id)) ∈ plog w0 (cs ++ cs' ++ [.sync] ++ cs'') → d.length + 8 < ps →
        (pstep w6 (.get id)).1 = if ofBE id / ps ≤ w2.length / ps then .bytes (.ok d) else .bytes .err := by
  obtain ⟨hb, hps⟩ := open_base h8 ho
  obtain ⟨hb1, hk1, -⟩ := prun_keeps cs hb hr
  have hps1 : w1.pageSize = ps := by rw [hk1.1, hps]
  obtain ⟨hb2, hk2, -⟩ := prun_keeps cs' hb1 hr'
  have hps2 : w2.pageSize = ps := by rw [hk2.1, hps1]
  have ht1 := prun_tracked hp hu cs hb (open_tracked hp hu ho) hr hc hok
  have ht2 := prun_fine hp hu cs' hb1 ht1.fine hr' hok' hsync fun a b v hab hv => by
    have := (prun_keeps a hb1 hv).2.1.1
    rw [this, hps1]
    exact hpage a b v hab hv
  obtain ⟨⟨s1, s2, s3, s4⟩, ht3⟩ := sync_stage hb2 ht2 hs (by rw [hps2]; exact hne)
  obtain ⟨hb3, -⟩ := pstep_keeps hb2 hs
  obtain ⟨hb4, hk4, -⟩ := prun_keeps cs'' hb3 hr''
  have hps4 : w4.pageSize = ps := by rw [hk4.1, s3, hps2]
  have hpage4 : w4.length / w4.pageSize ≠ w2.length / w2.pageSize := by rw [hps4, hps2]; exact hpage''
  have hrall : prun w0 (cs ++ cs' ++ [.sync] ++ cs'') = some w4 := by
    have : prun w2 [.sync] = some w3 := by simp [prun, hs]
    rw [prun_append, prun_append, prun_append, hr, Option.bind_some, hr', Option.bind_some, this]
    exact hr''
  obtain ⟨-, -, h⟩ := prun_keeps _ hb hrall
  obtain ⟨w6, h1, h2⟩ := late_get hp hu hb4 (stage_late (prun_stage hp hu cs'' hb3 ht3 hr'' hc'' hok'') hpage4) hs'' hsize
  rw [hps4] at h1 h2
  rw [hps2] at h2
  refine ⟨w6, h1, fun d id hm hd => ?_⟩
  obtain ⟨s, c1, c2, c3, c4⟩ := h d id hm (by rw [hps]; exact hd)
  have e : ofBE id = s := by rw [c1]; exact ofBE_toBE_lt (by omega)
  rw [e, c1]
  exact h2 d s c3 c2 c4

/-- Calls after the page of `exSamePage` that finish it and two more, with pages of 64 bytes. -/
def exLater : List PCall := [.put [8], .put (List.replicate 50 5), .put (List.replicate 30 6), .put [9]]

/-- The hypotheses of `C60_lost` are met, and what `get` returns after opening again: the last four blobs are lost. -/
example : ((openPaging exFile [] 64).map fun w => (plog w (exPuts2 ++ exSamePage ++ [.sync] ++ exLater ++ [.sync])).map (·.2)) =
      some [.bytes (.ok [0, 0, 0, 0, 0, 0, 0, 4]), .bytes (.ok [0, 0, 0, 0, 0, 0, 0, 12]), .bytes (.ok [0, 0, 0, 0, 0, 0, 0, 68]), .done (.ok ()), .bytes (.ok [0, 0, 0, 0, 0, 0, 0, 108]), .done (.ok ()),
        .bytes (.ok [0, 0, 0, 0, 0, 0, 0, 116]), .done (.ok ()), .bytes (.ok [0, 0, 0, 0, 0, 0, 0, 132]), .bytes (.ok [0, 0, 0, 0, 0, 0, 0, 196]), .bytes (.ok [0, 0, 0, 0, 0, 0, 1, 4]),
        .bytes (.ok [0, 0, 0, 0, 0, 0, 1, 44]), .done (.ok ())] ∧
    (((openPaging exFile [] 64).bind fun w => prun w (exPuts2 ++ exSamePage)).map fun w => (w.length % 64, w.length / 64)) = some (58, 1) ∧
    (((openPaging exFile [] 64).bind fun w => prun w (exPuts2 ++ exSamePage ++ [.sync] ++ exLater)).map fun w => (w.length, w.length / 64)) = some (305, 4) ∧
    ((((openPaging exFile [] 64).bind fun w => prun w (exPuts2 ++ exSamePage ++ [.sync] ++ exLater ++ [.sync])).bind fun w => openPaging (step w.file .reopen).2 [] 64).map fun w =>
      [[0, 0, 0, 0, 0, 0, 0, 4], [0, 0, 0, 0, 0, 0, 0, 116], [0, 0, 0, 0, 0, 0, 0, 132], [0, 0, 0, 0, 0, 0, 0, 196], [0, 0, 0, 0, 0, 0, 1, 4], [0, 0, 0, 0, 0, 0, 1, 44]].map fun id => (pstep w (.get id)).1) =
      some [.bytes (.ok [1, 2]), .bytes (.ok [7, 8]), .bytes .err, .bytes .err, .bytes .err, .bytes .err] := by decide +kernel

/-- **C60** is false for every later session that finishes a page. Let a session on a new file be as in `C60_one_sync_partial`, with something on its last page. Then the store can be opened again (when
the browser does not fail from there on). Let it be, with any calls of `put` and `get` in which this page is finished and no `put` returns `Err`, and then a `sync` that returns `Ok`. If the store is opened once
more, `get` returns `Err` for every blob of the second session that is not on the last page of the first session. -/
theorem C60_next_session_lost (hp : Plain name) (hu : Unused cache name) {ps : Nat} (h8 : 8 ∣ ps) {coming : List (List Ev)} {w0 w1 w2 : Inner}
    (ho : openPaging (run (fresh cache name) [.reopen]) coming ps = some w0) {cs : List PCall} (hc : ∀ c ∈ cs, c ≠ .sync)
    (hok : ∀ d, (.put d, .bytes .err) ∉ plog w0 cs) (hr : prun w0 cs = some w1) (hs : pstep w1 .sync = (.done (.ok ()), some w2)) (hsize : w1.length < 2 ^ 31)
    (hne : w1.length % ps ≠ 0) :
    ∃ w3, openPaging (step w2.file .reopen).2 [] ps = some w3 ∧ ∀ {cs' : List PCall} {w4 w5 : Inner}, (∀ c ∈ cs', c ≠ .sync) →
      (∀ d, (.put d, .bytes .err) ∉ plog w3 cs') → prun w3 cs' = some w4 → w4.length / ps ≠ w1.length / ps → pstep w4 .sync = (.done (.ok ()), some w5) → w4.length < 2 ^ 31 →
      ∃ w6, openPaging (step w5.file .reopen).2 [] ps = some w6 ∧ ∀ d id, (.put d, .bytes (.ok id)) ∈ plog w3 cs' → d.length + 8 < ps →
        (pstep w6 (.get id)).1 = if ofBE id / ps ≤ w1.length / ps then .bytes (.ok d) else .bytes .err := by
  obtain ⟨hb, hps⟩ := open_base h8 ho
  obtain ⟨hb1, hk1, -⟩ := prun_keeps cs hb hr
  have hps1 : w1.pageSize = ps := by rw [hk1.1, hps]
  have ht1 := prun_tracked hp hu cs hb (open_tracked hp hu ho) hr hc hok
  obtain ⟨w3, h1, hb3, hps3, hln3, ht3⟩ := reopened_stage hp hu hb1 ht1.fine hs hsize (by rw [hps1]; exact hne)
  rw [hps1] at h1 hps3 ht3
  refine ⟨w3, h1, fun {cs' w4 w5} hc' hok' hr' hpage hs' hsize' => ?_⟩
  obtain ⟨hb4, hk4, h⟩ := prun_keeps cs' hb3 hr'
  have hps4 : w4.pageSize = ps := by rw [hk4.1, hps3]
  obtain ⟨w6, h2, h3⟩ := late_get hp hu hb4 (stage_late (prun_stage hp hu cs' hb3 ht3 hr' hc' hok') (by rw [hps4]; exact hpage)) hs' hsize'
  rw [hps4] at h2 h3
  refine ⟨w6, h2, fun d id hm hd => ?_⟩
  obtain ⟨s, c1, c2, c3, c4⟩ := h d id hm (by rw [hps3]; exact hd)
  have e : ofBE id = s := by rw [c1]; exact ofBE_toBE_lt (by omega)
  rw [e, c1]
  exact h3 d s c3 c2 c4

/-- The hypotheses of `C60_next_session_lost` are met: the sessions `exPuts2` and `exLater`, each with one `sync`, with pages of 64 bytes, and what `get` returns after the second. -/
example : ((openPaging exFile [] 64).bind fun w => prun w (exPuts2 ++ [.sync])).map (·.length) = some 108 ∧
    ((((openPaging exFile [] 64).bind fun w => prun w (exPuts2 ++ [.sync])).bind fun w => openPaging (step w.file .reopen).2 [] 64).map fun w => (plog w (exLater ++ [.sync])).map (·.2)) =
      some [.bytes (.ok [0, 0, 0, 0, 0, 0, 0, 108]), .bytes (.ok [0, 0, 0, 0, 0, 0, 0, 132]), .bytes (.ok [0, 0, 0, 0, 0, 0, 0, 196]), .bytes (.ok [0, 0, 0, 0, 0, 0, 0, 236]), .done (.ok ())] ∧
    ((((((openPaging exFile [] 64).bind fun w => prun w (exPuts2 ++ [.sync])).bind fun w => openPaging (step w.file .reopen).2 [] 64).bind fun w => prun w (exLater ++ [.sync])).bind fun w =>
      openPaging (step w.file .reopen).2 [] 64).map fun w =>
      [[0, 0, 0, 0, 0, 0, 0, 108], [0, 0, 0, 0, 0, 0, 0, 132], [0, 0, 0, 0, 0, 0, 0, 196], [0, 0, 0, 0, 0, 0, 0, 236]].map fun id => (pstep w (.get id)).1) =
      some [.bytes (.ok [8]), .bytes .err, .bytes .err, .bytes .err] := by decide +kernel

/-- The session with two `sync`. -/
def exTwice : List PCall := [.put [1], .sync, .put [2], .sync, .get [0, 0, 0, 0, 0, 0, 0, 20]]

/-- **C60** is false in general: with two calls of `sync`, all with success, the second blob is lost when the file is opened again, and a new one is stored in its place. -/
theorem C60_false : ((openPaging exFile [] 16).map fun w => (plog w exTwice).map (·.2)) =
      some [.bytes (.ok [0, 0, 0, 0, 0, 0, 0, 4]), .done (.ok ()), .bytes (.ok [0, 0, 0, 0, 0, 0, 0, 20]), .done (.ok ()), .bytes (.ok [2])] ∧
    ((((openPaging exFile [] 16).bind fun w => prun w exTwice).bind fun w => openPaging (step w.file .reopen).2 [] 16).map fun w =>
      (plog w [.get [0, 0, 0, 0, 0, 0, 0, 20], .put [7], .get [0, 0, 0, 0, 0, 0, 0, 20]]).map (·.2)) =
      some [.bytes .err, .bytes (.ok [0, 0, 0, 0, 0, 0, 0, 20]), .bytes (.ok [7])] := by decide +kernel

end Radix.Browser.Paging
