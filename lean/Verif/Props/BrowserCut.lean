import Verif.Props.Browser
import Verif.Proofs.BrowserBlobs
import Verif.Proofs.BrowserReset

/-
C44, C45, C47 and C94: the length of a file of the browser file system after any changes, and blobs that are put after a truncation.
-/

set_option linter.unusedVariables false

namespace Radix.Browser

open Radix.Spec

variable {cache : Cache} {name : Name}

theorem changesOk_left {a b : List Call} {w : World} (h : ChangesOk (log w (a ++ b))) : ChangesOk (log w a) := by
  rw [log_append] at h
  exact fun e he => h e (List.mem_append.2 (Or.inl he))

theorem changesOk_right {a b : List Call} {w : World} (h : ChangesOk (log w (a ++ b))) : ChangesOk (log (run w a) b) := by
  rw [log_append] at h
  exact fun e he => h e (List.mem_append.2 (Or.inr he))

/-- **C45** (partial: what the length is instead, for all calls). After any history of writes at any offsets, blobs that were put and truncations, that returned `Ok`, with
reads and reopening in between, the length is the furthest end among the pieces of the highest level, in the sense of `Spec/Changes.lean`. -/
theorem C45_all_exact_partial (hp : Plain name) (hu : Unused cache name) {cs : List Call} (hok : ChangesOk (log (fresh cache name) cs)) {n : Nat}
    (hn : (step (run (fresh cache name) cs) .length).1 = .num n) : n = topEnd (piecesOf (changesOf cs)) := by
  obtain ⟨h1, h2, h3⟩ := fresh_changes hp hu hok
  unfold step at hn
  cases hh : (run (fresh cache name) cs).handle with
  | none => rw [hh] at hn; exact absurd hn (by simp)
  | some ch =>
    rw [hh] at hn
    have hi := h1.file hh []
    rw [← Seen.num.inj hn]
    refine length_pieces hi ?_ h3
    show AsPieces ch _
    rw [show ch = _ from hi.2]; exact h2

/-- **C44** (partial: exactly which reads succeed). After any history of writes, blobs and truncations that returned `Ok`, if the file is open, the browser does not fail and all offsets are below 2 GiB, a read returns `Ok` exactly
if it ends at the furthest end among the pieces of the highest level or before, in the sense of `Spec/Changes.lean`. (`C44_history_partial` says which bytes it returns.) -/
theorem C44_when_partial (hp : Plain name) (hu : Unused cache name) {cs : List Call} (hok : ChangesOk (log (fresh cache name) cs)) {evs : List Ev} (hq : Calm evs)
    (ho : (run (fresh cache name) cs).handle.isSome) (hs : reach 0 cs < 2 ^ 31) {a b : Nat} (hab : a ≤ b) :
    (∃ bs, (step (run (fresh cache name) cs) (.read a b evs)).1 = .bytes (.ok bs)) ↔ b ≤ topEnd (piecesOf (changesOf cs)) := by
  obtain ⟨-, -, -, k, hk, hread⟩ := C44_succeeds_partial hp hu hq ho
  rw [← C45_all_exact_partial hp hu hok hk]
  refine ⟨?_, hread a b hs⟩
  rintro ⟨bs, hbs⟩
  have h1 := (fresh_changes hp hu hok).1
  generalize run (fresh cache name) cs = w at *
  unfold step at hbs hk
  cases hh : w.handle with
  | none => rw [hh] at hbs; exact absurd hbs (by simp)
  | some ch =>
    rw [hh] at hbs hk
    dsimp only at hbs hk
    obtain ⟨evs', r, -, e, h2, -⟩ := read_spec hab (h1.file hh evs)
    rw [e] at hbs
    rw [← Seen.num.inj hk]
    exact (h2 bs (Seen.bytes.inj hbs)).1

/-- The hypotheses of `C44_when_partial` are met: of the ten bytes of a file in which the first four were written again, only those four can be read. -/
example : (log (fresh exCache exName) [.reopen, .write 0 [1, 2, 3, 4] [], .write 4 [5, 6, 7, 8, 9, 9] [], .write 0 [7, 7, 7, 7] [], .read 2 4 [], .read 2 5 []]).map (·.2) =
      [.opened, .done (.ok ()), .done (.ok ()), .done (.ok ()), .bytes (.ok [7, 7]), .bytes .err] ∧
    topEnd (piecesOf (changesOf [.reopen, .write 0 [1, 2, 3, 4] [], .write 4 [5, 6, 7, 8, 9, 9] [], .write 0 [7, 7, 7, 7] []])) = 4 :=
  ⟨by decide +kernel, by decide +kernel⟩

/-- **C47** (partial: the length, for writes that do not overlap). Let any writes of which no two overlap, in any order, be followed by a truncation to `n`, all with `Ok`. Then the length is the furthest end of what
is left of the writes below `n`: of a write that ends at `n` or before this is its end, of one that goes through `n` it is `n`, of one that begins at `n` or after nothing is left. -/
theorem C47_length_partial (hp : Plain name) (hu : Unused cache name) {cs : List Call} (hc : OnlyWrites cs) (ha : (writesOf cs).Pairwise Apart) {n : Nat} {evs : List Ev}
    (hok : ChangesOk (log (fresh cache name) (cs ++ [.truncate n evs]))) {m : Nat}
    (hm : (step (run (fresh cache name) (cs ++ [.truncate n evs])) .length).1 = .num m) :
    m = ((writesOf cs).map fun x => if x.1 + x.2 ≤ n then x.1 + x.2 else if x.1 < n then n else 0).foldr max 0 := by
  have h := C45_all_exact_partial hp hu hok hm
  rw [changesOf_append, changesOf_writes hc, piecesOf, List.foldl_append] at h
  have h1 : m = topEnd (cutAt (piecesOf ((writesOf cs).map fun w => .write w.1 w.2)) n) := h
  rw [piecesOf_writes, cut_apart (mem_pieces_apart _ ha)] at h1
  exact h1

/-- **C47** (partial: for writes that do not overlap). Let any writes of which no two overlap, in any order, be followed by a truncation to `n` within one of them or at its end, all with `Ok`. If the file is open, the
browser does not fail and all offsets are below 2 GiB, then reads below `n` succeed and give the bytes from before the truncation (0 in gaps), and the length is `n`. -/
theorem C47_reads_partial (hp : Plain name) (hu : Unused cache name) {cs : List Call} (hc : OnlyWrites cs) (ha : (writesOf cs).Pairwise Apart) {n : Nat} {e0 evs : List Ev}
    (hok : ChangesOk (log (fresh cache name) (cs ++ [.truncate n e0]))) (hin : ∃ x ∈ writesOf cs, x.1 < n ∧ n ≤ x.1 + x.2)
    (ho : (run (fresh cache name) (cs ++ [.truncate n e0])).handle.isSome) (hq : Calm evs) (hs : reach 0 (cs ++ [.truncate n e0]) < 2 ^ 31) :
    (step (run (fresh cache name) (cs ++ [.truncate n e0])) .length).1 = .num n ∧
    ∀ a b, b ≤ n → ∃ bs, (step (run (fresh cache name) (cs ++ [.truncate n e0])) (.read a b evs)).1 = .bytes (.ok bs) ∧ bs.length = b - a ∧
      ∀ i, i < b - a → bs[i]? = some (written nothing cs (a + i)) := by
  obtain ⟨-, -, -, k, hk, hread⟩ := C44_succeeds_partial hp hu hq ho
  have hkn := C47_length_partial hp hu hc ha hok hk
  have hn : k = n := by
    obtain ⟨x, hx, x1, x2⟩ := hin
    have h1 := foldr_max_le (endBelow n) hx
    have h2 : endBelow n x = n := by
      unfold endBelow
      by_cases h : x.1 + x.2 ≤ n
      · rw [if_pos h]; omega
      · rw [if_neg h, if_pos x1]
    have h3 : k = ((writesOf cs).map (endBelow n)).foldr max 0 := hkn
    rcases foldr_max_mem (endBelow n) (l := writesOf cs) with e | ⟨y, -, e⟩
    · omega
    · have := endBelow_le n y; omega
  subst hn
  refine ⟨hk, fun a b hb => ?_⟩
  obtain ⟨bs, hbs⟩ := hread a b hs hb
  refine ⟨bs, hbs, ?_⟩
  obtain ⟨h1, h2⟩ := winv_fresh hp.ne hu
  obtain ⟨h3, h4, -⟩ := log_possible (cs ++ [.truncate k e0]) h1
  rw [h2] at h3
  have hok1 := changesOk_left hok
  obtain ⟨h5, -⟩ := step_spec h4 (.read a b evs)
  rw [hbs] at h5
  rw [log_append, possible_append] at h3
  obtain ⟨u, h6, h7⟩ := h3
  rw [possible_written hc (fun e he => (hok1 e he).1) h6] at h7
  obtain ⟨u', h8, h9⟩ := h7
  have h9 : (run (fresh cache name) (cs ++ [.truncate k e0])).bytes = u' := h9
  have ht := ((changesOk_right hok) (.truncate k e0, (step (run (fresh cache name) cs) (.truncate k e0)).1) (by simp [log])).2.1 k e0 rfl
  dsimp only at ht h8
  rw [ht] at h8
  refine ⟨h5.2.1, fun i hi => ?_⟩
  rw [h5.2.2 i (by rw [h5.2.1]; exact hi), h9, h8.1 _ (by omega)]

/-- The hypotheses of `C47_length_partial` and `C47_reads_partial` are met: a truncation through a write, and one in a gap. -/
example : writesOf [.reopen, .write 4 [1, 2, 3] [], .write 0 [4, 5] [], .write 10 [6] []] = [(4, 3), (0, 2), (10, 1)] ∧
    (log (fresh exCache exName) ([.reopen, .write 4 [1, 2, 3] [], .write 0 [4, 5] [], .write 10 [6] []] ++ [.truncate 5 []] ++ [.length, .read 0 5 []])).map (·.2) =
      [.opened, .done (.ok ()), .done (.ok ()), .done (.ok ()), .done (.ok ()), .num 5, .bytes (.ok [4, 5, 0, 0, 1])] ∧
    (log (fresh exCache exName) ([.reopen, .write 4 [1, 2, 3] [], .write 0 [4, 5] [], .write 10 [6] []] ++ [.truncate 9 []] ++ [.length])).map (·.2) =
      [.opened, .done (.ok ()), .done (.ok ()), .done (.ok ()), .done (.ok ()), .num 7] :=
  ⟨rfl, by decide +kernel, by decide +kernel⟩

/-- **C94** (partial: where a blob goes). After any history of changes that returned `Ok`, a blob that is put, with `Ok`, is put at the furthest end among the pieces of the
highest level, whatever is there. -/
theorem C94_place_partial (hp : Plain name) (hu : Unused cache name) {cs : List Call} (hok : ChangesOk (log (fresh cache name) cs)) {d id : Bytes} {evs : List Ev}
    (hid : (step (run (fresh cache name) cs) (.put d evs)).1 = .bytes (.ok id)) : id = toBE 8 (topEnd (piecesOf (changesOf cs))) := by
  obtain ⟨h1, h2, h3⟩ := fresh_changes hp hu hok
  unfold step at hid
  cases hh : (run (fresh cache name) cs).handle with
  | none => rw [hh] at hid; exact absurd hid (by simp)
  | some ch =>
    rw [hh] at hid
    have hi := h1.file hh evs
    obtain ⟨o, h4, h5⟩ := map_ok (Seen.bytes.inj hid)
    rw [← h5, (put_pieces hi (w' := (appendPrefixed d _).2) (o := o) (ps := piecesOf (changesOf cs)) ?_ h3 (Prod.ext h4 rfl)).1]
    show AsPieces ch _
    rw [show ch = _ from hi.2]; exact h2

/-- **C94** is false whenever a truncation goes through a blob. Let blobs be put into a file, and the file be truncated at `n`, that is before the end and not between two
blobs; here `ls` are the sizes of the blobs, each with the 4 bytes of its length. Then the next two blobs that are put both get the place `n`, however long they are: the second overwrites the first. -/
theorem C94_same_place (hp : Plain name) (hu : Unused cache name) {cs : List Call} {ls : List Nat} (hls : changesOf cs = ls.map .append) {n : Nat} (hn : n < ls.sum)
    (hb : ∀ a b, ls = a ++ b → a.sum ≠ n) {e0 e1 e2 : List Ev} {d1 d2 : Bytes}
    (hok : ChangesOk (log (fresh cache name) (cs ++ [.truncate n e0, .put d1 e1, .put d2 e2]))) :
    (step (run (fresh cache name) (cs ++ [.truncate n e0])) (.put d1 e1)).1 = .bytes (.ok (toBE 8 n)) ∧
    (step (run (fresh cache name) (cs ++ [.truncate n e0, .put d1 e1])) (.put d2 e2)).1 = .bytes (.ok (toBE 8 n)) := by
  have hc := cut_appends hn hb (4 + d1.length)
  have a1 : cs ++ [.truncate n e0, .put d1 e1, .put d2 e2] = (cs ++ [.truncate n e0]) ++ [.put d1 e1, .put d2 e2] := by simp
  have a2 : cs ++ [.truncate n e0, .put d1 e1, .put d2 e2] = (cs ++ [.truncate n e0, .put d1 e1]) ++ [.put d2 e2] := by simp
  have k1 : changesOf (cs ++ [.truncate n e0]) = ls.map .append ++ [.cut n] := by rw [changesOf_append, hls]; rfl
  have k2 : changesOf (cs ++ [.truncate n e0, .put d1 e1]) = ls.map .append ++ [.cut n, .append (4 + d1.length)] := by rw [changesOf_append, hls]; rfl
  have o1 := hok
  have o2 := hok
  rw [a1] at o1
  rw [a2] at o2
  have l1 := changesOk_left o1
  have l2 := changesOk_left o2
  rw [log_append] at o1 o2
  obtain ⟨i1, h1⟩ := (o1 (.put d1 e1, (step (run (fresh cache name) (cs ++ [.truncate n e0])) (.put d1 e1)).1) (by simp [log])).2.2 _ _ rfl
  obtain ⟨i2, h2⟩ := (o2 (.put d2 e2, (step (run (fresh cache name) (cs ++ [.truncate n e0, .put d1 e1])) (.put d2 e2)).1) (by simp [log])).2.2 _ _ rfl
  dsimp only at h1 h2
  have p1 := C94_place_partial hp hu l1 h1
  have p2 := C94_place_partial hp hu l2 h2
  rw [k1, hc.1] at p1
  rw [k2, hc.2] at p2
  rw [h1, h2, p1, p2]
  exact ⟨rfl, rfl⟩

/-- **C94** (partial: truncating between two blobs). Let blobs be put into a file and the file be truncated after the blobs with the sizes `a`, so that the blobs with the sizes `b` go,
all with `Ok`. Then each blob that is put gets the place after what was kept and what was put since, so that no two of them overlap. -/
theorem C94_between_partial (hp : Plain name) (hu : Unused cache name) {cs more : List Call} {a b ms : List Nat} (hls : changesOf cs = (a ++ b).map .append)
    (hms : changesOf more = ms.map .append) {e0 evs : List Ev} {d id : Bytes} (hok : ChangesOk (log (fresh cache name) (cs ++ .truncate a.sum e0 :: more)))
    (hid : (step (run (fresh cache name) (cs ++ .truncate a.sum e0 :: more)) (.put d evs)).1 = .bytes (.ok id)) : id = toBE 8 (a.sum + ms.sum) := by
  have h1 := C94_place_partial hp hu hok hid
  have k : changesOf (cs ++ .truncate a.sum e0 :: more) = ((a ++ b).map .append ++ [.cut a.sum]) ++ ms.map .append := by
    rw [changesOf_append, hls, List.append_assoc]
    show _ ++ .cut a.sum :: changesOf more = _
    rw [hms]; rfl
  rw [k, piecesOf, List.foldl_append] at h1
  rw [h1]
  exact congrArg (toBE 8) (flat_appends ms (flat_cut (a := a) (b := b))).2

/-- **C94** (partial: blobs that nothing else is put on). After any history of writes, blobs and truncations that returned `Ok`, let a blob `d` be put, with `Ok`, and then be followed by any calls
that return `Ok` and do not touch its place: writes and blobs before or behind it, truncations behind it, reads, reopening. Then `get` returns `d` or does not return `Ok`; and
it returns `d` if the file is open, the browser does not fail and all offsets are below 2 GiB. -/
theorem C94_read_back_partial (hp : Plain name) (hu : Unused cache name) {cs more : List Call} {d id : Bytes} {e0 evs : List Ev}
    (hok : ChangesOk (log (fresh cache name) (cs ++ .put d e0 :: more))) (hid : (step (run (fresh cache name) cs) (.put d e0)).1 = .bytes (.ok id))
    (he : ∀ e ∈ log (run (fresh cache name) (cs ++ [.put d e0])) more, Elsewhere (ofBE id) (ofBE id + (record d).length) e) :
    ((step (run (fresh cache name) (cs ++ .put d e0 :: more)) (.get id evs)).1 = .bytes (.ok d) ∨
      ∀ bs, (step (run (fresh cache name) (cs ++ .put d e0 :: more)) (.get id evs)).1 ≠ .bytes (.ok bs)) ∧
    ((run (fresh cache name) (cs ++ .put d e0 :: more)).handle.isSome → Calm evs → reach 0 (cs ++ .put d e0 :: more) < 2 ^ 31 →
      (step (run (fresh cache name) (cs ++ .put d e0 :: more)) (.get id evs)).1 = .bytes (.ok d)) := by
  obtain ⟨h1, h2, h3⟩ := fresh_changes hp hu (changesOk_left hok)
  obtain ⟨p1, p2, p3, p4⟩ := step_put h1 h2 h3 hid
  have k := kept_put h1 h2 h3 hid
  have hw := (step_spec h1 (.put d e0)).2.1
  have hr : run (fresh cache name) (cs ++ .put d e0 :: more) = run (step (run (fresh cache name) cs) (.put d e0)).2 more := by rw [run_append]; rfl
  have hr1 : run (fresh cache name) (cs ++ [.put d e0]) = (step (run (fresh cache name) cs) (.put d e0)).2 := by rw [run_append]; rfl
  have hok' : ChangesOk (log (step (run (fresh cache name) cs) (.put d e0)).2 more) := fun e he =>
    changesOk_right hok e (by unfold log; exact List.mem_cons_of_mem _ he)
  rw [hr1] at he
  have k' := kept_run more hw k hok' he
  rw [← hr] at k'
  have hw0 := (winv_fresh hp.ne hu).1
  obtain ⟨-, h4, h5, -⟩ := log_possible (cs ++ .put d e0 :: more) hw0
  have h5 : (run (fresh cache name) (cs ++ .put d e0 :: more)).name = name := h5
  have hb := run_within (cs ++ .put d e0 :: more) (E := 0) (L := 0) hw0 (by
    intro c hcm
    obtain ⟨e, hem, hpe⟩ := mem_chunksOf.1 hcm
    have hpe : parseRequest e.1 name = some c := hpe
    rw [hu e hem] at hpe
    exact absurd hpe (by simp))
  have hb : Within (chunksOf (run (fresh cache name) (cs ++ .put d e0 :: more)).cache name) _ _ := hb
  generalize run (fresh cache name) (cs ++ .put d e0 :: more) = w at *
  have hlen : id.length = 8 := by rw [p2, toBE_length]
  unfold step
  cases hh : w.handle with
  | none => exact ⟨Or.inr (by simp), fun h => absurd h (by simp)⟩
  | some ch =>
    dsimp only
    rw [if_pos hlen]
    obtain ⟨evs', r, -, eg, hr⟩ := k'.get h4 p4 hh evs
    rw [eg]
    dsimp only
    constructor
    · rcases hr with rfl | ⟨hr, -⟩
      · exact Or.inl rfl
      · exact Or.inr fun bs he => hr bs (Seen.bytes.inj he)
    · intro _ hq hsm
      rcases hr with rfl | ⟨-, hr⟩
      · rfl
      · refine absurd hr ?_
        rintro (hr | hr)
        · exact hr hq
        · refine hr fun c hc => ?_
          rw [h5] at hc
          have := (hb c hc).1
          omega

/-- **C94** is false whenever a truncation goes through a blob: with the hypotheses of `C94_same_place`, what `get` returns for the first of the two blobs, if it returns `Ok`, is the second. -/
theorem C94_lost (hp : Plain name) (hu : Unused cache name) {cs : List Call} {ls : List Nat} (hls : changesOf cs = ls.map .append) {n : Nat} (hn : n < ls.sum)
    (hb : ∀ a b, ls = a ++ b → a.sum ≠ n) {e0 e1 e2 evs : List Ev} {d1 d2 id bs : Bytes}
    (hok : ChangesOk (log (fresh cache name) (cs ++ [.truncate n e0, .put d1 e1, .put d2 e2])))
    (hid : (step (run (fresh cache name) (cs ++ [.truncate n e0])) (.put d1 e1)).1 = .bytes (.ok id))
    (hget : (step (run (fresh cache name) (cs ++ [.truncate n e0, .put d1 e1, .put d2 e2])) (.get id evs)).1 = .bytes (.ok bs)) : bs = d2 := by
  obtain ⟨h1, h2⟩ := C94_same_place hp hu hls hn hb hok
  have h1 : id = toBE 8 n := by rw [hid] at h1; exact Out.ok.inj (Seen.bytes.inj h1)
  have a : cs ++ [.truncate n e0, .put d1 e1, .put d2 e2] = (cs ++ [.truncate n e0, .put d1 e1]) ++ .put d2 e2 :: [] := by simp
  rw [a] at hok hget
  rw [h1] at hget
  rcases (C94_read_back_partial hp hu (evs := evs) hok h2 (fun e he => absurd he (by simp [log]))).1 with h | h
  · rw [hget] at h; exact Out.ok.inj (Seen.bytes.inj h)
  · exact absurd hget (h bs)

/-- **C94** (partial: truncating between two blobs; the blobs put since). Let blobs be put into a file, the file be truncated between two of them, and more blobs be put, with reads and reopening in between, all
with `Ok`. Then `get` of a blob that was put since returns this blob or does not return `Ok`; and it returns the blob if the file is open, the browser does not fail and all offsets are below 2 GiB. -/
theorem C94_new_read_partial (hp : Plain name) (hu : Unused cache name) {cs m1 m2 : List Call} {a b ms : List Nat} (hls : changesOf cs = (a ++ b).map .append) {d id : Bytes}
    {e0 e1 evs : List Ev} (hms : changesOf (m1 ++ .put d e1 :: m2) = ms.map .append)
    (hok : ChangesOk (log (fresh cache name) ((cs ++ .truncate a.sum e0 :: m1) ++ .put d e1 :: m2)))
    (hid : (step (run (fresh cache name) (cs ++ .truncate a.sum e0 :: m1)) (.put d e1)).1 = .bytes (.ok id)) :
    ((step (run (fresh cache name) ((cs ++ .truncate a.sum e0 :: m1) ++ .put d e1 :: m2)) (.get id evs)).1 = .bytes (.ok d) ∨
      ∀ bs, (step (run (fresh cache name) ((cs ++ .truncate a.sum e0 :: m1) ++ .put d e1 :: m2)) (.get id evs)).1 ≠ .bytes (.ok bs)) ∧
    ((run (fresh cache name) ((cs ++ .truncate a.sum e0 :: m1) ++ .put d e1 :: m2)).handle.isSome → Calm evs →
      reach 0 ((cs ++ .truncate a.sum e0 :: m1) ++ .put d e1 :: m2) < 2 ^ 31 →
      (step (run (fresh cache name) ((cs ++ .truncate a.sum e0 :: m1) ++ .put d e1 :: m2)) (.get id evs)).1 = .bytes (.ok d)) := by
  refine C94_read_back_partial hp hu hok hid ?_
  rw [changesOf_append] at hms
  obtain ⟨u, v, -, hm1, hm2⟩ := map_append_split hms
  have k : changesOf (cs ++ .truncate a.sum e0 :: m1) = ((a ++ b).map .append ++ [.cut a.sum]) ++ u.map .append := by
    rw [changesOf_append, hls, List.append_assoc]
    show _ ++ .cut a.sum :: changesOf m1 = _
    rw [hm1]; rfl
  have hf : FlatPieces (piecesOf (changesOf (cs ++ .truncate a.sum e0 :: m1))) (a.sum + u.sum) := by
    rw [k, piecesOf, List.foldl_append]
    exact flat_appends u (flat_cut (a := a) (b := b))
  obtain ⟨h1, h2, h3⟩ := fresh_changes hp hu (changesOk_left hok)
  have h4 := (step_put h1 h2 h3 hid).1
  rw [hf.2] at h4
  have a2 : (cs ++ .truncate a.sum e0 :: m1) ++ .put d e1 :: m2 = ((cs ++ .truncate a.sum e0 :: m1) ++ [.put d e1]) ++ m2 := by simp
  rw [a2] at hok
  obtain ⟨g1, g2, g3⟩ := fresh_changes hp hu (changesOk_left hok)
  have g4 : FlatPieces (piecesOf (changesOf ((cs ++ .truncate a.sum e0 :: m1) ++ [.put d e1]))) (a.sum + u.sum + (4 + d.length)) := by
    rw [changesOf_append, piecesOf, List.foldl_append]
    have := flat_appends [4 + d.length] hf
    rw [List.sum_singleton] at this
    exact this
  obtain ⟨v', hv⟩ : ∃ v' : List Nat, changesOf m2 = v'.map .append := by
    cases v with
    | nil => cases hm2
    | cons x v => injection hm2 with _ h; exact ⟨v, h⟩
  exact puts_elsewhere m2 g1 g2 g3 g4 (by rw [h4, record_length]; exact Nat.le_refl _) hv (changesOk_right hok)

/-- **C94** (partial: truncating between two blobs; the blobs that are kept). Let blobs be put into a file, the file be truncated between two of them, and more blobs be put, with reads and reopening in between,
all with `Ok`. Then the same is true for the blobs before the place of the truncation. -/
theorem C94_old_read_partial (hp : Plain name) (hu : Unused cache name) {c1 c2 more : List Call} {a b ms : List Nat} {d id : Bytes} {e0 e1 evs : List Ev}
    (hls : changesOf (c1 ++ .put d e1 :: c2) = (a ++ b).map .append) (hms : changesOf more = ms.map .append)
    (hok : ChangesOk (log (fresh cache name) (c1 ++ .put d e1 :: (c2 ++ .truncate a.sum e0 :: more))))
    (hid : (step (run (fresh cache name) c1) (.put d e1)).1 = .bytes (.ok id)) (hkept : ofBE id + (record d).length ≤ a.sum) :
    ((step (run (fresh cache name) (c1 ++ .put d e1 :: (c2 ++ .truncate a.sum e0 :: more))) (.get id evs)).1 = .bytes (.ok d) ∨
      ∀ bs, (step (run (fresh cache name) (c1 ++ .put d e1 :: (c2 ++ .truncate a.sum e0 :: more))) (.get id evs)).1 ≠ .bytes (.ok bs)) ∧
    ((run (fresh cache name) (c1 ++ .put d e1 :: (c2 ++ .truncate a.sum e0 :: more))).handle.isSome → Calm evs →
      reach 0 (c1 ++ .put d e1 :: (c2 ++ .truncate a.sum e0 :: more)) < 2 ^ 31 →
      (step (run (fresh cache name) (c1 ++ .put d e1 :: (c2 ++ .truncate a.sum e0 :: more))) (.get id evs)).1 = .bytes (.ok d)) := by
  refine C94_read_back_partial hp hu hok hid ?_
  have hls' := hls
  rw [changesOf_append] at hls'
  obtain ⟨u, v, -, hm1, hm2⟩ := map_append_split hls'
  have hf : FlatPieces (piecesOf (changesOf c1)) (0 + u.sum) := by rw [hm1]; exact flat_appends u flat_nil
  obtain ⟨h1, h2, h3⟩ := fresh_changes hp hu (changesOk_left hok)
  have h4 := (step_put h1 h2 h3 hid).1
  rw [hf.2] at h4
  have a2 : c1 ++ .put d e1 :: (c2 ++ .truncate a.sum e0 :: more) = (c1 ++ [.put d e1]) ++ (c2 ++ .truncate a.sum e0 :: more) := by simp
  have a3 : c1 ++ .put d e1 :: (c2 ++ .truncate a.sum e0 :: more) = ((c1 ++ .put d e1 :: c2) ++ [.truncate a.sum e0]) ++ more := by simp
  have o2 := hok
  have o3 := hok
  rw [a2] at o2
  rw [a3] at o3
  obtain ⟨g1, g2, g3⟩ := fresh_changes hp hu (changesOk_left o2)
  have g4 : FlatPieces (piecesOf (changesOf (c1 ++ [.put d e1]))) (0 + u.sum + (4 + d.length)) := by
    rw [changesOf_append, piecesOf, List.foldl_append]
    have := flat_appends [4 + d.length] hf
    rw [List.sum_singleton] at this
    exact this
  obtain ⟨v', hv⟩ : ∃ v' : List Nat, changesOf c2 = v'.map .append := by
    cases v with
    | nil => cases hm2
    | cons x v => injection hm2 with _ h; exact ⟨v, h⟩
  obtain ⟨t1, t2, t3⟩ := fresh_changes hp hu (changesOk_left o3)
  have t4 : FlatPieces (piecesOf (changesOf ((c1 ++ .put d e1 :: c2) ++ [.truncate a.sum e0]))) a.sum := by
    rw [changesOf_append, hls]; exact flat_cut
  have hrun : run (run (fresh cache name) (c1 ++ [.put d e1])) (c2 ++ [.truncate a.sum e0]) = run (fresh cache name) ((c1 ++ .put d e1 :: c2) ++ [.truncate a.sum e0]) := by
    rw [← run_append]; congr 1; simp
  intro e he
  have a4 : c2 ++ .truncate a.sum e0 :: more = (c2 ++ [.truncate a.sum e0]) ++ more := by simp
  rw [a4, log_append, hrun] at he
  rcases List.mem_append.1 he with he | he
  · rw [log_append] at he
    rcases List.mem_append.1 he with he | he
    · exact puts_elsewhere c2 g1 g2 g3 g4 (by rw [h4, record_length]; exact Nat.le_refl _) hv (changesOk_left (changesOk_right o2)) e he
    · rw [List.mem_singleton.1 he]; exact hkept
  · exact puts_elsewhere more t1 t2 t3 t4 hkept hms (changesOk_right o3) e he

/-- Two blobs. -/
def exBlobs : List Call := [.reopen, .put [1, 2, 3] [], .put [4, 5] []]

/-- The hypotheses of `C94_same_place` are met: truncating at 9, within the second blob. Of the two blobs that are put then, the first can no longer be read. -/
example : changesOf exBlobs = [7, 6].map .append ∧ 9 < [7, 6].sum ∧
    (log (fresh exCache exName) (exBlobs ++ [.truncate 9 [], .put [6, 7] [], .put [8] [], .get (toBE 8 9) []])).map (·.2) =
      [.opened, .bytes (.ok (toBE 8 0)), .bytes (.ok (toBE 8 7)), .done (.ok ()), .bytes (.ok (toBE 8 9)), .bytes (.ok (toBE 8 9)), .bytes (.ok [8])] :=
  ⟨rfl, by decide, by decide +kernel⟩

example : ∀ a b, [7, 6] = a ++ b → a.sum ≠ 9 := by
  intro a b h
  match a with
  | [] => simp
  | [x] => simp at h; simp; omega
  | [x, y] => simp at h; simp; omega
  | x :: y :: z :: a => simp at h

/-- The hypotheses of `C94_between_partial` are met: truncating at 7, between the blobs. -/
example : changesOf exBlobs = ([7] ++ [6]).map .append ∧ changesOf [.put [6, 7] [], .get (toBE 8 0) []] = [6].map .append ∧
    (log (fresh exCache exName) (exBlobs ++ .truncate [7].sum [] :: [.put [6, 7] [], .get (toBE 8 0) []] ++ [.put [8] []])).map (·.2) =
      [.opened, .bytes (.ok (toBE 8 0)), .bytes (.ok (toBE 8 7)), .done (.ok ()), .bytes (.ok (toBE 8 7)), .bytes (.ok [1, 2, 3]), .bytes (.ok (toBE 8 13))] :=
  ⟨rfl, rfl, by decide +kernel⟩

/-- The hypotheses of `C94_new_read_partial` and `C94_old_read_partial` are met: truncating at 7, between the blobs. -/
example : changesOf exBlobs = ([7] ++ [6]).map .append ∧ changesOf ([.put [6, 7] []] ++ .put [8] [] :: [.reopen, .put [9] []]) = [6, 5, 5].map .append ∧
    (log (fresh exCache exName) ((exBlobs ++ .truncate [7].sum [] :: [.put [6, 7] []]) ++ .put [8] [] :: [.reopen, .put [9] []] ++ [.get (toBE 8 13) [], .get (toBE 8 0) []])).map (·.2) =
      [.opened, .bytes (.ok (toBE 8 0)), .bytes (.ok (toBE 8 7)), .done (.ok ()), .bytes (.ok (toBE 8 7)), .bytes (.ok (toBE 8 13)), .opened, .bytes (.ok (toBE 8 18)),
        .bytes (.ok [8]), .bytes (.ok [1, 2, 3])] ∧ ofBE (toBE 8 0) + (record [1, 2, 3]).length ≤ [7].sum :=
  ⟨rfl, rfl, by decide +kernel, by decide +kernel⟩

/-- **C94** is false as it stands: the second of the blobs that are put after the truncation takes the place of the first. -/
theorem C94_false : (log (fresh [] exName) (exBlobs ++ [.truncate 9 [], .put [6, 7] [], .put [8] [], .get (toBE 8 9) []])).map (·.2) =
    [.opened, .bytes (.ok (toBE 8 0)), .bytes (.ok (toBE 8 7)), .done (.ok ()), .bytes (.ok (toBE 8 9)), .bytes (.ok (toBE 8 9)), .bytes (.ok [8])] := by decide +kernel

/-- Calls that do not touch the blob at 9: a write behind it, a blob that goes behind it, a truncation there. -/
def exAround : List Call := [.write 30 [1] [], .truncate 31 [], .write 0 [7, 7] [], .reopen, .put [5] []]

/-- The hypotheses of `C94_read_back_partial` are met, after a truncation that went through a blob. -/
example : (log (fresh exCache exName) (exBlobs ++ [.truncate 9 [], .put [6, 7] [], .put [8] []] ++ exAround ++ [.get (toBE 8 9) []])).map (·.2) =
      [.opened, .bytes (.ok (toBE 8 0)), .bytes (.ok (toBE 8 7)), .done (.ok ()), .bytes (.ok (toBE 8 9)), .bytes (.ok (toBE 8 9)),
        .done (.ok ()), .done (.ok ()), .done (.ok ()), .opened, .bytes (.ok (toBE 8 15)), .bytes (.ok [8])] := by
  decide +kernel

example : ∀ e ∈ log (run (fresh exCache exName) (exBlobs ++ [.truncate 9 [], .put [6, 7] [], .put [8] []])) exAround, Elsewhere 9 (9 + (record [8]).length) e := by
  have h : log (run (fresh exCache exName) (exBlobs ++ [.truncate 9 [], .put [6, 7] [], .put [8] []])) exAround =
      [(.write 30 [1] [], .done (.ok ())), (.truncate 31 [], .done (.ok ())), (.write 0 [7, 7] [], .done (.ok ())), (.reopen, .opened), (.put [5] [], .bytes (.ok (toBE 8 15)))] := by
    decide +kernel
  rw [h]
  have hr : (record [8]).length = 5 := by decide +kernel
  have h14 : ofBE (toBE 8 15) = 15 := by decide +kernel
  intro e he
  simp only [List.mem_cons, List.not_mem_nil, or_false] at he
  rcases he with rfl | rfl | rfl | rfl | rfl <;> simp [Elsewhere, hr]
  rw [h14]; omega

/-- The hypotheses of `C45_all_exact_partial` are met: the pieces after writes, a blob and two truncations, and the length. -/
example : changesOf [.reopen, .write 0 [1, 2, 3, 4] [], .put [5, 6] [], .truncate 6 [], .write 20 [7] [], .truncate 3 []] =
      [.write 0 4, .append 6, .cut 6, .write 20 1, .cut 3] ∧
    piecesOf [.write 0 4, .append 6, .cut 6, .write 20 1] = [⟨0, 20, 1⟩, ⟨1, 4, 2⟩, ⟨0, 0, 4⟩] ∧
    (step (run (fresh exCache exName) [.reopen, .write 0 [1, 2, 3, 4] [], .put [5, 6] [], .truncate 6 [], .write 20 [7] []]) .length).1 = .num 6 ∧
    piecesOf [.write 0 4, .append 6, .cut 6, .write 20 1, .cut 3] = [⟨2, 0, 3⟩] :=
  ⟨rfl, by decide +kernel, by decide +kernel, by decide +kernel⟩

/-- **C47** (partial: truncating to 0 makes the lengths those of a new file). After any history of changes with `Ok`, also one that left a wrong length, let the file be truncated to 0 and any
changes follow, all with `Ok`. Then the length is the one after the same changes, with `Ok`, to another file that is new; and a blob that is put next in both gets the same id in both. -/
theorem C47_reset_partial (hp : Plain name) (hu : Unused cache name) {cs more : List Call} {e0 : List Ev}
    (hok : ChangesOk (log (fresh cache name) (cs ++ .truncate 0 e0 :: more))) {cache' : Cache} {name' : Name} (hp' : Plain name') (hu' : Unused cache' name')
    (hok' : ChangesOk (log (fresh cache' name') (.reopen :: more))) :
    (∀ n n', (step (run (fresh cache name) (cs ++ .truncate 0 e0 :: more)) .length).1 = .num n → (step (run (fresh cache' name') (.reopen :: more)) .length).1 = .num n' → n = n') ∧
    ∀ d e1 e2 id id', (step (run (fresh cache name) (cs ++ .truncate 0 e0 :: more)) (.put d e1)).1 = .bytes (.ok id) →
      (step (run (fresh cache' name') (.reopen :: more)) (.put d e2)).1 = .bytes (.ok id') → id = id' := by
  have h : topEnd (piecesOf (changesOf (cs ++ .truncate 0 e0 :: more))) = topEnd (piecesOf (changesOf (.reopen :: more))) := by
    rw [changesOf_append]
    exact topEnd_reset (changesOf cs) (changesOf more)
  refine ⟨fun n n' h1 h2 => ?_, fun d e1 e2 id id' h1 h2 => ?_⟩
  · rw [C45_all_exact_partial hp hu hok h1, C45_all_exact_partial hp' hu' hok' h2, h]
  · rw [C94_place_partial hp hu hok h1, C94_place_partial hp' hu' hok' h2, h]

/-- **C47** (partial: the length after truncating to 0). After any history of changes with `Ok`, a truncation to 0 with `Ok` leaves the length 0. -/
theorem C47_to_zero_partial (hp : Plain name) (hu : Unused cache name) {cs : List Call} {e0 : List Ev} (hok : ChangesOk (log (fresh cache name) (cs ++ [.truncate 0 e0]))) {n : Nat}
    (hn : (step (run (fresh cache name) (cs ++ [.truncate 0 e0])) .length).1 = .num n) : n = 0 := by
  rw [C45_all_exact_partial hp hu hok hn, changesOf_append]
  exact topEnd_reset (changesOf cs) []

/-- The hypotheses of `C47_reset_partial` and `C47_to_zero_partial` are met: after writes that leave a wrong length the file is truncated to 0 and written again. -/
example : (log (fresh exCache exName) ([.reopen, .write 0 [1, 2, 3, 4] [], .write 4 [5, 6, 7] [], .write 0 [7, 7, 7, 7] [], .length] ++ .truncate 0 [] :: [.length, .write 0 [1, 2] [], .write 2 [3] [], .length])).map (·.2) =
      [.opened, .done (.ok ()), .done (.ok ()), .done (.ok ()), .num 4, .done (.ok ()), .num 0, .done (.ok ()), .done (.ok ()), .num 3] ∧
    (log (fresh exCache exName) (.reopen :: [.length, .write 0 [1, 2] [], .write 2 [3] [], .length])).map (·.2) =
      [.opened, .num 0, .done (.ok ()), .done (.ok ()), .num 3] :=
  ⟨by decide +kernel, by decide +kernel⟩

/-- **C47** (partial: reads after truncating to 0). After any history whatsoever, let the file be truncated to 0 and any writes follow, all these with `Ok`, with reads and reopening in between.
Then a read that returns `Ok` gives at each offset the last byte that was written there after the truncation, and 0 where nothing was. -/
theorem C47_reset_reads_partial (hp : Plain name) (hu : Unused cache name) {cs more : List Call} {e0 evs : List Ev}
    (ht : (step (run (fresh cache name) cs) (.truncate 0 e0)).1 = .done (.ok ())) (hc : OnlyWrites more)
    (hok : WritesOk (log (run (fresh cache name) (cs ++ [.truncate 0 e0])) more)) {a b : Nat} {bs : Bytes}
    (hr : (step (run (fresh cache name) (cs ++ [.truncate 0 e0] ++ more)) (.read a b evs)).1 = .bytes (.ok bs)) :
    bs.length = b - a ∧ ∀ i, i < b - a → bs[i]? = some (written nothing more (a + i)) := by
  obtain ⟨h1, -⟩ := winv_fresh hp.ne hu
  obtain ⟨-, h2, -, -⟩ := log_possible cs h1
  obtain ⟨h3, h4, -⟩ := step_spec h2 (.truncate 0 e0)
  rw [ht] at h3
  have e : run (fresh cache name) (cs ++ [.truncate 0 e0]) = (step (run (fresh cache name) cs) (.truncate 0 e0)).2 := by
    rw [run_append]; rfl
  rw [run_append, e] at hr
  rw [e] at hok
  have hz : (step (run (fresh cache name) cs) (.truncate 0 e0)).2.bytes = nothing := funext fun i => (h3.2 i (Nat.zero_le _)).resolve_right fun h => h.1 rfl
  generalize (step (run (fresh cache name) cs) (.truncate 0 e0)).2 = w at *
  obtain ⟨h5, h6, -⟩ := log_possible more h4
  obtain ⟨h7, -⟩ := step_spec h6 (.read a b evs)
  rw [hr, possible_written hc hok h5, hz] at h7
  exact ⟨h7.2.1, fun i hi => h7.2.2 i (by rw [h7.2.1]; exact hi)⟩

/-- The hypotheses of `C47_reset_reads_partial` are met: bytes that were cut off do not come back in the gap before a later write. -/
example : (log (fresh exCache exName) ([.reopen, .write 0 [1, 2, 3, 4] []] ++ [.truncate 0 []] ++ [.write 3 [9] []] ++ [.read 0 4 []])).map (·.2) =
    [.opened, .done (.ok ()), .done (.ok ()), .done (.ok ()), .bytes (.ok [0, 0, 0, 9])] := by decide +kernel

end Radix.Browser
