import Verif.Proofs.BrowserFlat
import Verif.Browser.Store

/-
Helper lemmas: files that are only appended to (`put`), and what `get` gives.
-/

set_option linter.unusedVariables false

namespace Radix.Browser

open Radix.Spec (overwrite cut Shows Explains Possible record Contents nothing Unused reach)

theorem record_length (d : Bytes) : (record d).length = 4 + d.length := by simp [record, toBE_length]

/-- The bytes that the records of some items take. -/
def total : List Bytes → Nat
  | [] => 0
  | d :: ds => (record d).length + total ds

theorem total_append (a b : List Bytes) : total (a ++ b) = total a + total b := by
  induction a with
  | nil => simp [total]
  | cons d a ih => rw [List.cons_append, total, total, ih]; omega

/-- The chunk of an item after some others. -/
def chunkAt (pre : List Bytes) (d : Bytes) : Chunk := ⟨0, total pre, (record d).length⟩

/-- The chunks of some items, one after the other. -/
def layout : Nat → List Bytes → List Chunk
  | _, [] => []
  | o, d :: ds => ⟨0, o, (record d).length⟩ :: layout (o + (record d).length) ds

theorem layout_append : ∀ (o : Nat) (a b : List Bytes), layout o (a ++ b) = layout o a ++ layout (o + total a) b
  | o, [], b => by simp [layout, total]
  | o, d :: a, b => by rw [List.cons_append, layout, layout, layout_append, total, List.cons_append]; congr 3; omega

theorem mem_layout : ∀ {o : Nat} {ds : List Bytes} {c : Chunk}, c ∈ layout o ds → o ≤ c.offset ∧ c.offset + c.len ≤ o + total ds ∧ c.level = 0 ∧ 4 ≤ c.len
  | o, d :: ds, c, h => by
    rw [layout] at h
    rw [total]
    rcases List.mem_cons.1 h with rfl | h
    · have := record_length d
      dsimp only
      omega
    · have := mem_layout h
      omega

theorem length_layout {w : File} {ds : List Bytes} (h : w.chunks = layout 0 ds) : length w = total ds := by
  unfold length prev
  rw [h]
  rcases List.eq_nil_or_concat ds with rfl | ⟨a, d, rfl⟩
  · rfl
  · rw [List.concat_eq_append, layout_append, total_append]
    simp [layout, total, Chunk.range]

theorem insert_max {c : Chunk} : ∀ {cs : List Chunk}, (∀ x ∈ cs, x.lt c = true) → insert c cs = cs ++ [c]
  | [], _ => rfl
  | x :: cs, h => by
    have h1 := h x (by simp)
    unfold insert
    rw [if_neg (lt_asymm h1), if_neg (fun e => by subst e; exact lt_irrefl h1), insert_max fun y hy => h y (by simp [hy])]
    rfl

/-- The file holds these items, and nothing else. -/
structure Holds (name : Name) (cache : Cache) (items : List Bytes) : Prop where
  chunks : chunksOf cache name = layout 0 items
  data : ∀ pre d post, items = pre ++ d :: post → dat name cache (chunkAt pre d) = record d
  small : ∀ d ∈ items, d.length < 2 ^ 32

theorem Holds.mem {name : Name} {cache : Cache} {pre post : List Bytes} {d : Bytes} (h : Holds name cache (pre ++ d :: post)) :
    chunkAt pre d ∈ chunksOf cache name := by
  rw [h.chunks, layout_append, layout]
  simp [chunkAt]

/-- A `put` appends the item or does nothing. -/
theorem put_holds {w : File} {items : List Bytes} (h : Inv w) (ho : Holds w.name w.cache items) (d : Bytes) :
    ∃ w' r, appendPrefixed d w = (r, w') ∧ w'.name = w.name ∧ CInv w'.name w'.cache ∧ (r ≠ .crash → Inv w') ∧
      (∀ n, r = .ok n → n = total items) ∧
      (w'.cache = w.cache ∧ (∀ n, r ≠ .ok n) ∨ Holds w.name w'.cache (items ++ [d])) := by
  unfold appendPrefixed
  split
  case isFalse => exact ⟨w, .panic, rfl, rfl, h.1, fun _ => h, by simp, Or.inl ⟨rfl, by simp⟩⟩
  rename_i hd
  have hl : length w = total items := length_layout (by rw [h.2]; exact ho.chunks)
  have e : append (toBE 4 d.length ++ d) w = _ := append_eq (record d) w
  rw [e, hl]
  have ha : ∀ c ∈ w.chunks, Apart (c.offset, c.len) (total items, (record d).length) := by
    intro c hc
    rw [h.2, ho.chunks] at hc
    have := mem_layout hc
    exact Or.inl (by dsimp only; omega)
  obtain ⟨w', r, ew, hn, hci, hinv, hcase⟩ := write_apart h ha
  rw [ew]
  refine ⟨w', _, rfl, hn, hci, fun hr => hinv (fun e => hr (by rw [e]; rfl)), fun n hn => ?_, ?_⟩
  · cases r with
    | ok u => exact (Out.ok.inj hn).symm
    | err => exact absurd hn (by simp [Out.map])
    | panic => exact absurd hn (by simp [Out.map])
    | crash => exact absurd hn (by simp [Out.map])
  · rcases hcase with ⟨hc, hr⟩ | ⟨hc, hv⟩
    · refine Or.inl ⟨hc, fun n hn => ?_⟩
      cases r with
      | ok u => exact hr rfl
      | err => exact absurd hn (by simp [Out.map])
      | panic => exact absurd hn (by simp [Out.map])
      | crash => exact absurd hn (by simp [Out.map])
    · refine Or.inr ⟨?_, ?_, ?_⟩
      · rw [hc, chunksOf_set h.1 hv, ho.chunks, layout_append, insert_max, Nat.zero_add]
        · rfl
        · intro x hx
          have := mem_layout hx
          have := record_length d
          rw [lt_iff]
          dsimp only
          omega
      · intro pre x post hx
        rw [hc]
        rcases List.eq_nil_or_concat post with rfl | ⟨post', y, rfl⟩
        · obtain ⟨rfl, he⟩ := List.append_inj' hx rfl
          cases he
          exact dat_set_self
        · rw [List.concat_eq_append, ← List.cons_append, ← List.append_assoc] at hx
          obtain ⟨hx, -⟩ := List.append_inj' hx rfl
          have hm : chunkAt pre x ∈ chunksOf w.cache w.name := Holds.mem (post := post') (by rw [← hx]; exact ho)
          rw [dat_set_ne h.1 hv (h.1.chunk hm).1]
          · exact ho.data pre x post' hx
          · intro heq
            have h1 : total pre = total items := congrArg Chunk.offset heq
            rw [hx, total_append, total] at h1
            have := record_length x
            omega
      · intro x hx
        rcases List.mem_append.1 hx with hx | hx
        · exact ho.small x hx
        · rw [List.mem_singleton.1 hx]; exact hd

theorem tab_of {a : Nat} {bs : Bytes} {v : Nat → UInt8} (h : ∀ i, i < bs.length → v (a + i) = bs.getD i 0) : tab a bs.length v = bs := by
  refine List.ext_getElem (tab_length _ _ _) fun i h1 h2 => ?_
  rw [tab_get, h i h2, List.getD_eq_getElem?_getD, List.getElem?_eq_getElem h2]
  rfl

/-- `get` of an item returns it, or fails if an operation of the browser fails or the file is large. -/
theorem get_holds {w : File} {pre post : List Bytes} {d : Bytes} (h : Inv w) (ho : Holds w.name w.cache (pre ++ d :: post)) :
    ∃ evs' r, (Calm w.evs → Calm evs') ∧ loadPrefixed (total pre) w = (r, { w with evs := evs' }) ∧
      (r = .ok d ∨ (∀ bs, r ≠ .ok bs) ∧ (¬ Calm w.evs ∨ ¬ total (pre ++ d :: post) < 2 ^ 31)) := by
  have hm := ho.mem
  have hv := (h.1.chunk hm).1
  have hrl := record_length d
  have hcv : total pre + (record d).length < 2 ^ 64 := hv.2
  have hcs : intersecting w.chunks (total pre, total pre + 4) = [chunkAt pre d] := by
    unfold intersecting
    rw [h.2, ho.chunks, layout_append, layout, List.filter_append, List.filter_cons]
    have e1 : (layout 0 pre).filter (fun c => overlap c.range (total pre, total pre + 4)) = [] := by
      apply List.filter_eq_nil_iff.2
      intro c hc hov
      have := mem_layout hc
      have := overlap_iff.1 hov
      dsimp only [Chunk.range] at this
      omega
    have e2 : (layout (0 + total pre + (record d).length) post).filter (fun c => overlap c.range (total pre, total pre + 4)) = [] := by
      apply List.filter_eq_nil_iff.2
      intro c hc hov
      have := mem_layout hc
      have := overlap_iff.1 hov
      dsimp only [Chunk.range] at this
      omega
    rw [e1, e2, if_pos (overlap_iff.2 (by dsimp only [Chunk.range]; omega))]
    simp [chunkAt]
  unfold loadPrefixed
  rw [if_pos (by omega)]
  dsimp only
  rw [bind_ok (x := self) rfl, hcs]
  change ∃ evs' r, _ ∧ (loadChunks (total pre, total pre + (record d).length) [chunkAt pre d] >>= _) w = _ ∧ _
  have htot : total pre + (record d).length ≤ total (pre ++ d :: post) := by rw [total_append, total]; omega
  have hbig : ¬ (record d).length < 2 ^ 31 → ¬ total (pre ++ d :: post) < 2 ^ 31 := by omega
  -- the buffer
  unfold loadChunks buffer
  dsimp only
  have hlen : total pre + (record d).length - total pre = (record d).length := by omega
  rw [hlen]
  by_cases h1 : (record d).length < 2 ^ 32
  case neg =>
    rw [toUsize_err (by omega), out_bind_err]
    refine ⟨w.evs, .err, fun h => h, ?_, Or.inr ⟨by simp, Or.inr (hbig (by omega))⟩⟩
    rw [bind_err (w' := w)]
    rw [bind_err (x := lift _) rfl]
  rw [toUsize_ok (by omega), out_bind_ok, show ((record d).length : Int).toNat = (record d).length from by omega]
  by_cases h2 : (record d).length < 2 ^ 31
  case neg =>
    rw [if_neg h2]
    refine ⟨w.evs, .panic, fun h => h, ?_, Or.inr ⟨by simp, Or.inr (hbig h2)⟩⟩
    rw [bind_panic (w' := w)]
    rw [bind_panic (x := lift _) rfl]
  rw [if_pos h2]
  obtain ⟨evs', hq, hr⟩ := fill_spec (a := total pre) (b := total pre + (record d).length) (by omega) (by omega) [chunkAt pre d] h
    (fun _ => 0) (fun c hc => by
      rw [List.mem_singleton.1 hc]
      refine ⟨by rw [h.2]; exact hm, overlap_iff.2 ?_⟩
      dsimp only [Chunk.range, chunkAt]
      omega)
  rw [← tab_zero, hlen] at hr
  refine ⟨evs', ?_⟩
  rcases hr with e | ⟨hn, e⟩ | ⟨hn, e⟩
  · have hres : tab (total pre) (record d).length (fun p => viewFrom (dat w.name w.cache) p 0 [chunkAt pre d]) = record d := by
      refine tab_of fun i hi => ?_
      show (if Covers (chunkAt pre d) (total pre + i) then (dat w.name w.cache (chunkAt pre d)).getD (total pre + i - total pre) 0 else 0) = _
      rw [if_pos ⟨by dsimp only [chunkAt]; omega, by dsimp only [chunkAt]; omega⟩, ho.data pre d post rfl, show total pre + i - total pre = i from by omega]
    rw [hres] at e
    rw [bind_ok (w' := { w with evs := evs' }) (a := record d) (by rw [bind_ok (x := lift _) rfl]; exact e)]
    have hd : d.length < 2 ^ 32 := ho.small d (by simp)
    have htake : (record d).take 4 = toBE 4 d.length := by
      unfold record
      rw [List.take_append_of_le_length (by simp [toBE_length]), List.take_of_length_le (by simp [toBE_length])]
    have hdrop : (record d).drop 4 = d := by
      unfold record
      rw [List.drop_append_of_le_length (by simp [toBE_length]), List.drop_of_length_le (by simp [toBE_length]), List.nil_append]
    rw [if_neg (by omega), htake, ofBE_toBE_lt (by omega), if_pos (by omega),
      bind_ok (a := ()) (w' := { w with evs := evs' }) (by simp [ensure, lift]; omega), hdrop, List.take_length]
    exact ⟨.ok d, hq, rfl, Or.inl rfl⟩
  · refine ⟨.err, hq, ?_, Or.inr ⟨by simp, hn.imp_right fun hn hlt => hn ⟨fun c hc => ?_, by omega⟩⟩⟩
    · rw [bind_err (w' := { w with evs := evs' })]
      rw [bind_ok (x := lift _) rfl]; exact e
    · rw [List.mem_singleton.1 hc]
      dsimp only [chunkAt]
      omega
  · refine ⟨.crash, hq, ?_, Or.inr ⟨by simp, Or.inl hn⟩⟩
    rw [bind_crash (w' := { w with evs := evs' })]
    rw [bind_ok (x := lift _) rfl]; exact e

/-! ### Histories -/

/-- What a `put` that returned `Ok` says. -/
def PutOk (e : Call × Seen) (d id : Bytes) : Prop := (∃ evs, e.1 = .put d evs) ∧ e.2 = .bytes (.ok id)

theorem step_holds {w : World} {items : List Bytes} (h : WInv w) (ho : Holds w.name w.cache items) {c : Call} (hc : AppendOnly c) :
    ∃ more, Holds w.name (step w c).2.cache (items ++ more) ∧
      (∀ d id, PutOk (c, (step w c).1) d id → more = [d] ∧ id = toBE 8 (total items) ∧ total items < 2 ^ 64) ∧
      ((∀ d evs, c ≠ .put d evs) → more = []) ∧ ∀ d evs, c = .put d evs → more = [] ∨ more = [d] := by
  have hno : ∀ {s : Seen}, (∀ d evs, c ≠ .put d evs) → ∀ d id, ¬ PutOk (c, s) d id := by
    rintro s hcp d id ⟨⟨evs, hce⟩, -⟩
    exact hcp d evs hce
  have hsame : (∀ d evs, c ≠ .put d evs) → (step w c).2.cache = w.cache → ∃ more, Holds w.name (step w c).2.cache (items ++ more) ∧
      (∀ d id, PutOk (c, (step w c).1) d id → more = [d] ∧ id = toBE 8 (total items) ∧ total items < 2 ^ 64) ∧
      ((∀ d evs, c ≠ .put d evs) → more = []) ∧ ∀ d evs, c = .put d evs → more = [] ∨ more = [d] := fun hcp hcc =>
    ⟨[], by rw [hcc, List.append_nil]; exact ho, fun d id hp => absurd hp (hno hcp d id), fun _ => rfl, fun d evs he => absurd he (hcp d evs)⟩
  cases c with
  | truncate n evs => exact absurd rfl (hc.1 n evs)
  | write o d evs => exact absurd rfl (hc.2 o d evs)
  | reopen => exact hsame (by simp) rfl
  | length => exact hsame (by simp) (by unfold step; cases hh : w.handle <;> rfl)
  | read a b evs =>
    refine hsame (by simp) ?_
    unfold step
    cases hh : w.handle with
    | none => rfl
    | some cs =>
      dsimp only
      rw [cache_after, cache_reader (reader_read _)]
  | get id evs =>
    refine hsame (by simp) ?_
    unfold step
    cases hh : w.handle with
    | none => rfl
    | some cs =>
      dsimp only
      split
      · dsimp only
        rw [cache_after, cache_reader (reader_loadPrefixed _)]
      · rfl
  | put d evs =>
    unfold step
    cases hh : w.handle with
    | none =>
      refine ⟨[], by rw [List.append_nil]; exact ho, ?_, fun _ => rfl, fun _ _ _ => Or.inl rfl⟩
      rintro d' id ⟨-, hp⟩
      exact absurd hp (by simp)
    | some cs =>
      have hi := h.file hh evs
      obtain ⟨w', r, e, hn, -, -, hlen, hcase⟩ := put_holds hi ho d
      have htot : total items < 2 ^ 64 := by
        rw [← length_layout (w := ⟨w.cache, w.name, cs, evs⟩) (by rw [hi.2]; exact ho.chunks)]
        exact length_lt hi
      dsimp only
      rw [e]
      dsimp only
      rw [cache_after]
      have hok : ∀ d' id, PutOk (Call.put d evs, Seen.bytes (Out.map (toBE 8) r)) d' id → d' = d ∧ id = toBE 8 (total items) ∧ ∃ n, r = .ok n := by
        rintro d' id ⟨⟨evs', h1⟩, h2⟩
        refine ⟨(Call.put.inj h1).1.symm, ?_⟩
        cases r with
        | ok n => exact ⟨by rw [← hlen n rfl]; exact (Out.ok.inj (Seen.bytes.inj h2)).symm, n, rfl⟩
        | err => exact absurd (Seen.bytes.inj h2) (by simp [Out.map])
        | panic => exact absurd (Seen.bytes.inj h2) (by simp [Out.map])
        | crash => exact absurd (Seen.bytes.inj h2) (by simp [Out.map])
      rcases hcase with ⟨hcc, hnok⟩ | hh
      · refine ⟨[], by rw [List.append_nil, hcc]; exact ho, ?_, fun _ => rfl, fun _ _ _ => Or.inl rfl⟩
        intro d' id hp
        obtain ⟨-, -, n, hr⟩ := hok d' id hp
        exact absurd hr (hnok n)
      · refine ⟨[d], hh, ?_, fun hne => absurd rfl (hne d evs), fun d' evs' he => Or.inr (by rw [(Call.put.inj he).1])⟩
        intro d' id hp
        obtain ⟨rfl, h2, -⟩ := hok d' id hp
        exact ⟨rfl, h2, htot⟩

/-- Every id that a `put` returned is the place of its item. -/
theorem run_holds : ∀ (cs : List Call) {w : World} {items : List Bytes} (h : WInv w) (ho : Holds w.name w.cache items)
    (hc : ∀ c ∈ cs, AppendOnly c), ∃ more, Holds w.name (run w cs).cache (items ++ more) ∧
      ∀ e ∈ log w cs, ∀ d id, PutOk e d id → ∃ pre post, items ++ more = pre ++ d :: post ∧ items.length ≤ pre.length ∧
        id = toBE 8 (total pre) ∧ total pre < 2 ^ 64
  | [], w, items, h, ho, hc => ⟨[], by rw [List.append_nil]; exact ho, fun e he => absurd he (by simp [log])⟩
  | c :: cs, w, items, h, ho, hc => by
    obtain ⟨-, h2, h3, -⟩ := step_spec h c
    obtain ⟨m1, h4, h5, -, -⟩ := step_holds h ho (hc c (by simp))
    obtain ⟨m2, h6, h7⟩ := run_holds cs h2 (by rw [h3]; exact h4) fun x hx => hc x (by simp [hx])
    rw [h3] at h6
    refine ⟨m1 ++ m2, by rw [← List.append_assoc]; exact h6, ?_⟩
    intro e he d id hp
    rw [log] at he
    rcases List.mem_cons.1 he with rfl | he
    · obtain ⟨rfl, h8, h9⟩ := h5 d id hp
      exact ⟨items, m2, by simp, Nat.le_refl _, h8, h9⟩
    · obtain ⟨pre, post, h8, h9, h10, h11⟩ := h7 e he d id hp
      refine ⟨pre, post, by rw [← List.append_assoc]; exact h8, ?_, h10, h11⟩
      rw [List.length_append] at h9
      omega

theorem holds_fresh {cache : Cache} {name : Name} (hu : Unused cache name) : Holds name cache [] := by
  refine ⟨?_, fun pre d post h => absurd h (by simp), by simp⟩
  apply List.eq_nil_iff_forall_not_mem.2
  intro c hc
  obtain ⟨e, he, hpe⟩ := mem_chunksOf.1 hc
  rw [hu e he] at hpe
  exact absurd hpe (by simp)

end Radix.Browser
