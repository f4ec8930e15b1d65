import Verif.Proofs.BrowserExact
import Verif.Proofs.BrowserOps
import Verif.Spec.Changes

/-
Helper lemmas: the chunks after any changes that all returned `Ok`.
-/

set_option linter.unusedVariables false

namespace Radix.Browser

open Radix.Spec

/-- The changes that a history makes; the 4 bytes of the length come with each blob. -/
def changesOf : List Call → List Change
  | [] => []
  | .write offset data _ :: cs => .write offset data.length :: changesOf cs
  | .put data _ :: cs => .append (4 + data.length) :: changesOf cs
  | .truncate size _ :: cs => .cut size :: changesOf cs
  | _ :: cs => changesOf cs

/-- All calls of the log that change the file returned `Ok`. -/
def ChangesOk (l : List (Call × Seen)) : Prop := ∀ e ∈ l,
  (∀ o d evs, e.1 = .write o d evs → e.2 = .done (.ok ())) ∧ (∀ n evs, e.1 = .truncate n evs → e.2 = .done (.ok ())) ∧
  ∀ d evs, e.1 = .put d evs → ∃ id, e.2 = .bytes (.ok id)

theorem changesOf_append : ∀ (a b : List Call), changesOf (a ++ b) = changesOf a ++ changesOf b
  | [], b => rfl
  | c :: a, b => by
    have ih := changesOf_append a b
    cases c
    case write => exact congrArg (_ :: ·) ih
    case put => exact congrArg (_ :: ·) ih
    case truncate => exact congrArg (_ :: ·) ih
    all_goals exact ih

theorem topLevel_le {ps : List Piece} {p : Piece} (h : p ∈ ps) : p.level ≤ topLevel ps := foldr_max_le (·.level) h

/-- `topEnd` is what `TopEnd` says. -/
theorem topEnd_spec (ps : List Piece) : TopEnd ps (topEnd ps) := by
  cases ps with
  | nil => exact Or.inl ⟨rfl, rfl⟩
  | cons a as =>
    right
    have hne : ∃ p ∈ a :: as, p.level = topLevel (a :: as) := by
      rcases foldr_max_mem (fun p : Piece => p.level) (l := a :: as) with h | ⟨x, hx, h⟩
      · have := topLevel_le (ps := a :: as) (p := a) (by simp)
        have h : topLevel (a :: as) = 0 := h
        exact ⟨a, by simp, by omega⟩
      · exact ⟨x, hx, h⟩
    obtain ⟨q, hq, hql⟩ := hne
    have hqf : q ∈ (a :: as).filter fun p => decide (p.level = topLevel (a :: as)) := List.mem_filter.2 ⟨hq, by simpa using hql⟩
    have hmem : ∃ p ∈ (a :: as).filter fun p => decide (p.level = topLevel (a :: as)), p.offset + p.len = topEnd (a :: as) := by
      rcases foldr_max_mem (fun p : Piece => p.offset + p.len) (l := (a :: as).filter fun p => decide (p.level = topLevel (a :: as))) with h | ⟨x, hx, h⟩
      · have h1 := foldr_max_le (fun p : Piece => p.offset + p.len) hqf
        have h : topEnd (a :: as) = 0 := h
        have h1 : q.offset + q.len ≤ topEnd (a :: as) := h1
        exact ⟨q, hqf, by omega⟩
      · exact ⟨x, hx, h⟩
    obtain ⟨p, hp, hpe⟩ := hmem
    obtain ⟨hp1, hp2⟩ := List.mem_filter.1 hp
    have hp2 : p.level = topLevel (a :: as) := by simpa using hp2
    refine ⟨p, hp1, fun r hr => by rw [hp2]; exact topLevel_le hr, fun r hr hrl => ?_, hpe.symm⟩
    rw [hpe]
    exact foldr_max_le (fun p : Piece => p.offset + p.len) (List.mem_filter.2 ⟨hr, by simpa [hp2] using hrl⟩)

theorem mem_cutAt {ps : List Piece} {n : Nat} {p : Piece} : p ∈ cutAt ps n ↔
    (∃ q ∈ ps, n < q.offset + q.len ∧ q.offset < n ∧ p = ⟨levelOver ps n, q.offset, n - q.offset⟩) ∨ p ∈ ps ∧ p.offset + p.len ≤ n := by
  unfold cutAt
  rw [List.mem_append, List.mem_map, List.mem_filter]
  constructor
  · rintro (⟨q, hq, rfl⟩ | ⟨h1, h2⟩)
    · obtain ⟨h1, h2⟩ := List.mem_filter.1 hq
      simp at h2
      exact Or.inl ⟨q, h1, h2.1, h2.2, rfl⟩
    · exact Or.inr ⟨h1, by simpa using h2⟩
  · rintro (⟨q, hq, h1, h2, rfl⟩ | ⟨h1, h2⟩)
    · exact Or.inl ⟨q, List.mem_filter.2 ⟨hq, by simp [h1, h2]⟩, rfl⟩
    · exact Or.inr ⟨h1, by simpa using h2⟩

theorem levelOver_above {ps : List Piece} {n : Nat} {p : Piece} (hp : p ∈ ps) (hn : n < p.offset + p.len) : p.level < levelOver ps n :=
  foldr_max_le (fun p : Piece => p.level + 1) (List.mem_filter.2 ⟨hp, by simpa using hn⟩)

theorem levelOver_cases (ps : List Piece) (n : Nat) : levelOver ps n = 0 ∨ ∃ p ∈ ps, n < p.offset + p.len ∧ p.level + 1 = levelOver ps n := by
  rcases foldr_max_mem (fun p : Piece => p.level + 1) (l := ps.filter fun p => decide (n < p.offset + p.len)) with h | ⟨x, hx, h⟩
  · exact Or.inl h
  · exact Or.inr ⟨x, (List.mem_filter.1 hx).1, by simpa using (List.mem_filter.1 hx).2, h⟩

theorem disjoint_cut {ps : List Piece} (h : NoneMeet ps) (n : Nat) : NoneMeet (cutAt ps n) := by
  intro p hp q hq hne
  rcases mem_cutAt.1 hp with ⟨a, ha, ha1, ha2, rfl⟩ | ⟨hp, hp'⟩ <;> rcases mem_cutAt.1 hq with ⟨b, hb, hb1, hb2, rfl⟩ | ⟨hq, hq'⟩
  · by_cases hab : a = b
    · rw [hab] at hne; exact absurd rfl hne
    · have := h a ha b hb hab; omega
  · have hab : a ≠ q := fun e => by rw [e] at ha1; omega
    have := h a ha q hq hab
    dsimp only; omega
  · have hab : p ≠ b := fun e => by rw [← e] at hb1; omega
    have := h p hp b hb hab
    dsimp only; omega
  · exact h p hp q hq hne

theorem disjoint_change {ps : List Piece} (h : NoneMeet ps) (c : Change) : NoneMeet (change ps c) := by
  cases c with
  | write o l => exact disjoint_stack h _
  | append l => exact disjoint_stack h _
  | cut n => exact disjoint_cut h n

/-- If a chunk is cut, what is left of it is written. -/
theorem plan_cut {cs : List Chunk} {n : Nat} {d : Chunk} (hd : d ∈ beyond cs n) (hn : d.offset < n) {ops : List Op} (e : truncatePlan cs n = .ok ops) :
    ∃ c rest, ops = .rewrite c :: rest := by
  unfold truncatePlan at e
  dsimp only at e
  have hrel : (cs.filter fun x => decide (x.range.2 > n)) = beyond cs n := rfl
  rw [hrel] at e
  rcases levelAbove_spec (beyond cs n) with ⟨l, e1, -⟩ | ⟨e1, -⟩
  · rw [e1, out_bind_ok, out_pure] at e
    cases hb : beyond cs n with
    | nil => rw [hb] at hd; exact absurd hd (by simp)
    | cons b bs =>
      rw [hb] at e hd
      simp only [List.map_cons] at e
      obtain ⟨h1, h2⟩ := foldl_min_spec (ls := bs.map (·.offset)) (l := b.offset)
      have h3 := h1 d.offset (by rw [← List.map_cons (f := Chunk.offset)]; exact List.mem_map_of_mem hd)
      rw [if_pos (by omega)] at e
      exact ⟨_, _, (Out.ok.inj e).symm⟩
  · rw [e1, out_bind_panic] at e; exact absurd e (by simp)

/-- The chunks after a truncation that returned `Ok`. -/
theorem truncate_pieces {w w' : File} (h : Inv w) {ps : List Piece} (hs : AsPieces w.chunks ps) (hd : NoneMeet ps) {n : Nat} (e : truncate n w = (.ok (), w')) :
    AsPieces (chunksOf w'.cache w.name) (cutAt ps n) := by
  unfold truncate at e
  rw [bind_ok (x := self) rfl] at e
  rcases truncatePlan_spec w.chunks n h.valid with ⟨first, l, e1, hok, hfirst, hlev, hl, -⟩ | ⟨e1, -⟩
  · have hok' : ∀ op ∈ first ++ (beyond w.chunks n).map .delete, OpOk op := by
      intro op hop
      rcases List.mem_append.1 hop with hop | hop
      · exact hok op hop
      · obtain ⟨c, hc, rfl⟩ := List.mem_map.1 hop
        exact h.valid c (mem_beyond.1 hc).1
    have hcut : first = [] → ∀ d ∈ beyond w.chunks n, ¬ d.offset < n := by
      intro hf d hd hn
      obtain ⟨c, rest, h1⟩ := plan_cut hd hn e1
      rw [hf, List.nil_append] at h1
      cases hb : beyond w.chunks n with
      | nil => rw [hb] at hd; exact absurd hd (by simp)
      | cons b bs => rw [hb] at h1; exact absurd (List.cons.inj h1).1 (by simp)
    rw [e1, bind_ok (x := lift _) rfl] at e
    obtain ⟨cache', chunks', evs', r, k, hq, ex, hk, hc, hrk, hinv⟩ := exec_spec _ h hok'
    rw [ex] at e
    have hr : r = .ok () := (Prod.mk.inj e).1
    rw [← (Prod.mk.inj e).2]
    dsimp only
    have hch : chunksOf cache' w.name = (first ++ (beyond w.chunks n).map Op.delete).foldl pureOp w.chunks := by
      rw [hc, hrk hr, List.take_length, chunksOf_effects _ h.1 hok', ← h.2]
    have hlv : (∃ d ∈ beyond w.chunks n, d.offset < n) → levelOver ps n = l := by
      rintro ⟨d, hdb, -⟩
      rcases levelOver_cases ps n with h4 | ⟨p, hp, hpn, h4⟩
      · have := levelOver_above ((hs (toPiece d)).2 ⟨d, (mem_beyond.1 hdb).1, rfl⟩) (n := n) (mem_beyond.1 hdb).2
        omega
      · obtain ⟨c, hc, rfl⟩ := (hs p).1 hp
        have h5 := hlev c (mem_beyond.2 ⟨hc, hpn⟩)
        have h4 : c.level + 1 = _ := h4
        rcases hl with hl | ⟨x, hx, hl⟩
        · omega
        · have h6 := levelOver_above ((hs (toPiece x)).2 ⟨x, (mem_beyond.1 hx).1, rfl⟩) (n := n) (mem_beyond.1 hx).2
          have h6 : x.level < _ := h6
          omega
    intro p
    rw [mem_cutAt, hch, List.foldl_append]
    rcases hfirst with hf | ⟨c, hf, c1, c2, c3, d, hdb, c4⟩
    · have hno := hcut hf
      rw [hf, List.foldl_nil]
      constructor
      · rintro (⟨q, hq, h1, h2, rfl⟩ | ⟨hp, h1⟩)
        · obtain ⟨x, hx, rfl⟩ := (hs q).1 hq
          exact absurd h2 (hno x (mem_beyond.2 ⟨hx, h1⟩))
        · obtain ⟨x, hx, rfl⟩ := (hs p).1 hp
          have h1 : x.offset + x.len ≤ n := h1
          exact ⟨x, mem_deletes.2 ⟨hx, fun hb => by have := (mem_beyond.1 hb).2; omega⟩, rfl⟩
      · rintro ⟨x, hx, rfl⟩
        obtain ⟨h1, h2⟩ := mem_deletes.1 hx
        refine Or.inr ⟨(hs _).2 ⟨x, h1, rfl⟩, ?_⟩
        show x.offset + x.len ≤ n
        by_cases hle : x.offset + x.len ≤ n
        · exact hle
        · exact absurd (mem_beyond.2 ⟨h1, by omega⟩) h2
    · have hlv := hlv ⟨d, hdb, by omega⟩
      have hdp := (hs (toPiece d)).2 ⟨d, (mem_beyond.1 hdb).1, rfl⟩
      have hdn := (mem_beyond.1 hdb).2
      have hcb : c ∉ beyond w.chunks n := fun hb => by have := (mem_beyond.1 hb).2; omega
      have hcp : toPiece c = ⟨levelOver ps n, d.offset, n - d.offset⟩ := by
        unfold toPiece
        rw [hlv, c3, c4]
        congr 1
        omega
      rw [hf]
      show _ ↔ ∃ x ∈ ((beyond w.chunks n).map Op.delete).foldl pureOp (insert c w.chunks), _
      constructor
      · rintro (⟨q, hq, h1, h2, rfl⟩ | ⟨hp, h1⟩)
        · have hqd : q = toPiece d := by
            by_cases hqd : q = toPiece d
            · exact hqd
            · have h3 := hd q hq _ hdp hqd
              have h3 : q.offset + q.len ≤ d.offset ∨ d.offset + d.len ≤ q.offset := h3
              omega
          refine ⟨c, mem_deletes.2 ⟨mem_insert.2 (Or.inl rfl), hcb⟩, ?_⟩
          rw [hqd, hcp]
          rfl
        · obtain ⟨x, hx, rfl⟩ := (hs p).1 hp
          have h1 : x.offset + x.len ≤ n := h1
          exact ⟨x, mem_deletes.2 ⟨mem_insert.2 (Or.inr hx), fun hb => by have := (mem_beyond.1 hb).2; omega⟩, rfl⟩
      · rintro ⟨x, hx, rfl⟩
        obtain ⟨h1, h2⟩ := mem_deletes.1 hx
        rcases mem_insert.1 h1 with rfl | h1
        · exact Or.inl ⟨toPiece d, hdp, hdn, by show d.offset < n; omega, hcp⟩
        · refine Or.inr ⟨(hs _).2 ⟨x, h1, rfl⟩, ?_⟩
          show x.offset + x.len ≤ n
          by_cases hle : x.offset + x.len ≤ n
          · exact hle
          · exact absurd (mem_beyond.2 ⟨h1, by omega⟩) h2
  · rw [e1, bind_panic (x := lift _) rfl] at e
    exact absurd (Prod.mk.inj e).1 (by simp)

/-- Appending is writing at the length. -/
theorem append_write {w w' : File} {data : Bytes} {o : Nat} (e : append data w = (.ok o, w')) : o = length w ∧ write (length w) data w = (.ok (), w') := by
  unfold append at e
  rw [bind_ok (x := self) rfl, bind_ok (x := self) rfl] at e
  unfold write
  rw [bind_ok (x := self) rfl]
  show _ ∧ (lift (add w.chunks (prev w).range.2 data) >>= fun plan => exec plan) w = _
  cases ha : add w.chunks (prev w).range.2 data with
  | ok plan =>
    rw [ha, bind_ok (x := lift _) rfl] at e
    rw [bind_ok (x := lift _) rfl]
    rcases hx : exec plan w with ⟨r, v⟩
    cases r with
    | ok u => rw [bind_ok hx] at e; cases e; exact ⟨rfl, rfl⟩
    | err => rw [bind_err hx] at e; cases e
    | panic => rw [bind_panic hx] at e; cases e
    | crash => rw [bind_crash hx] at e; cases e
  | err => rw [ha, bind_err (x := lift _) rfl] at e; cases e
  | panic => rw [ha, bind_panic (x := lift _) rfl] at e; cases e
  | crash => rw [ha, bind_crash (x := lift _) rfl] at e; cases e

theorem put_append {w w' : File} {data : Bytes} {o : Nat} (e : appendPrefixed data w = (.ok o, w')) : append (toBE 4 data.length ++ data) w = (.ok o, w') := by
  unfold appendPrefixed at e
  split at e
  · exact e
  · exact absurd (Prod.mk.inj e).1 (by simp)

/-- The length in a world is the top end of the pieces. -/
theorem length_pieces {w : File} (h : Inv w) {ps : List Piece} (hs : AsPieces w.chunks ps) (hd : NoneMeet ps) : length w = topEnd ps := by
  refine topEnd_unique (length_top ?_ hs hd) (topEnd_spec ps)
  rw [h.2]; exact sorted_chunksOf _ _

/-- A `put` that returned `Ok` returned the length, and appended. -/
theorem put_pieces {w w' : File} (h : Inv w) {ps : List Piece} (hs : AsPieces w.chunks ps) (hd : NoneMeet ps) {data : Bytes} {o : Nat}
    (e : appendPrefixed data w = (.ok o, w')) : o = topEnd ps ∧ AsPieces (chunksOf w'.cache w.name) (change ps (.append (4 + data.length))) := by
  obtain ⟨h1, h2⟩ := append_write (put_append e)
  rw [length_pieces h hs hd] at h1 h2
  have := write_pieces h hs h2
  rw [List.length_append, toBE_length] at this
  exact ⟨h1, this⟩

theorem map_ok {α β : Type} {f : α → β} {r : Out α} {b : β} (e : r.map f = .ok b) : ∃ a, r = .ok a ∧ f a = b := by
  cases r with
  | ok a => exact ⟨a, rfl, Out.ok.inj e⟩
  | err => cases e
  | panic => cases e
  | crash => cases e

theorem step_changes {w : World} {ps : List Piece} (h : WInv w) (he : AsPieces (chunksOf w.cache w.name) ps) (hd : NoneMeet ps) {c : Call}
    (hok : ChangesOk [(c, (step w c).1)]) : AsPieces (chunksOf (step w c).2.cache w.name) ((changesOf [c]).foldl change ps) := by
  obtain ⟨k1, k2, k3⟩ := hok (c, (step w c).1) (by simp)
  by_cases hw : (∀ n evs, c ≠ .truncate n evs) ∧ ∀ d evs, c ≠ .put d evs
  · have := step_pieces h he hw k1
    cases c with
    | truncate n evs => exact absurd rfl (hw.1 n evs)
    | put d evs => exact absurd rfl (hw.2 d evs)
    | write o d evs => exact this
    | reopen => exact this
    | length => exact this
    | read a b evs => exact this
    | get id evs => exact this
  cases c with
  | truncate n evs =>
    have hok := k2 n evs rfl
    unfold step at hok ⊢
    cases hh : w.handle with
    | none => rw [hh] at hok; exact absurd hok (by simp)
    | some cs =>
      rw [hh] at hok
      dsimp only at hok ⊢
      rw [cache_after]
      have hi := h.file hh evs
      have hcs : cs = chunksOf w.cache w.name := hi.2
      rw [← hcs] at he
      rcases hw : truncate n ⟨w.cache, w.name, cs, evs⟩ with ⟨r, w'⟩
      rw [hw] at hok
      dsimp only at hok ⊢
      have hr : r = .ok () := Seen.done.inj hok
      subst hr
      exact truncate_pieces hi he hd hw
  | put d evs =>
    obtain ⟨id, hok⟩ := k3 d evs rfl
    unfold step at hok ⊢
    cases hh : w.handle with
    | none => rw [hh] at hok; exact absurd hok (by simp)
    | some cs =>
      rw [hh] at hok
      dsimp only at hok ⊢
      rw [cache_after]
      have hi := h.file hh evs
      have hcs : cs = chunksOf w.cache w.name := hi.2
      rw [← hcs] at he
      rcases hw : appendPrefixed d ⟨w.cache, w.name, cs, evs⟩ with ⟨r, w'⟩
      rw [hw] at hok
      dsimp only at hok ⊢
      obtain ⟨o, hr, -⟩ := map_ok (Seen.bytes.inj hok)
      subst hr
      exact (put_pieces hi he hd hw).2
  | write o d evs => exact absurd ⟨by simp, by simp⟩ hw
  | reopen => exact absurd ⟨by simp, by simp⟩ hw
  | length => exact absurd ⟨by simp, by simp⟩ hw
  | read a b evs => exact absurd ⟨by simp, by simp⟩ hw
  | get id evs => exact absurd ⟨by simp, by simp⟩ hw

theorem disjoint_changes : ∀ (cs : List Change) {ps : List Piece}, NoneMeet ps → NoneMeet (cs.foldl change ps)
  | [], ps, h => h
  | c :: cs, ps, h => disjoint_changes cs (disjoint_change h c)

theorem run_changes : ∀ (cs : List Call) {w : World} {ps : List Piece} (h : WInv w) (he : AsPieces (chunksOf w.cache w.name) ps) (hd : NoneMeet ps)
    (hok : ChangesOk (log w cs)), AsPieces (chunksOf (run w cs).cache w.name) ((changesOf cs).foldl change ps)
  | [], w, ps, h, he, hd, hok => he
  | c :: cs, w, ps, h, he, hd, hok => by
    have ec : changesOf (c :: cs) = changesOf [c] ++ changesOf cs := changesOf_append [c] cs
    rw [ec, List.foldl_append]
    obtain ⟨-, h2, h3, -⟩ := step_spec h c
    have h4 := step_changes h he hd (c := c) fun e he => by
      rw [List.mem_singleton.1 he]
      exact hok (c, (step w c).1) (by simp [log])
    have := run_changes cs h2 (by rw [h3]; exact h4) (disjoint_changes _ hd) fun e he => hok e (by unfold log; exact List.mem_cons_of_mem _ he)
    rw [h3] at this
    exact this

/-- The pieces of a file that did not exist before. -/
theorem fresh_changes {cache : Cache} {name : Name} (hp : Plain name) (hu : Unused cache name) {cs : List Call} (hok : ChangesOk (log (fresh cache name) cs)) :
    WInv (run (fresh cache name) cs) ∧ AsPieces (chunksOf (run (fresh cache name) cs).cache (run (fresh cache name) cs).name) (piecesOf (changesOf cs)) ∧
    NoneMeet (piecesOf (changesOf cs)) := by
  obtain ⟨h1, h2⟩ := winv_fresh hp.ne hu
  obtain ⟨-, h4, h5, -⟩ := log_possible cs h1
  have h0 : NoneMeet ([] : List Piece) := fun p hp => absurd hp (by simp)
  have he := run_changes cs (ps := []) h1 (by
    intro p
    constructor
    · intro hp; exact absurd hp (by simp)
    · rintro ⟨c, hc, -⟩
      obtain ⟨e, hem, hpe⟩ := mem_chunksOf.1 hc
      have hpe : parseRequest e.1 name = some c := hpe
      rw [hu e hem] at hpe
      exact absurd hpe (by simp)) h0 hok
  rw [← h5] at he
  exact ⟨h4, he, disjoint_changes _ h0⟩

/-! ### Blobs one after the other, and a cut -/

/-- The pieces of blobs that were only appended. -/
theorem mem_appends : ∀ (k : Nat) (ls : List Nat), ls.length = k → (∀ p, p ∈ piecesOf (ls.map .append) ↔ ∃ a l b, ls = a ++ l :: b ∧ p = ⟨0, a.sum, l⟩) ∧
    topEnd (piecesOf (ls.map .append)) = ls.sum
  | 0, ls, hk => by
    have hk := List.length_eq_zero_iff.1 hk
    subst hk
    refine ⟨fun p => ⟨fun h => absurd h (by simp [piecesOf]), ?_⟩, rfl⟩
    rintro ⟨a, l, b, h, -⟩
    cases a <;> cases h
  | k + 1, ls, hk => by
    have ⟨ms, l, e⟩ : ∃ ms l, ls = ms ++ [l] := by
      rcases List.eq_nil_or_concat ls with rfl | ⟨ms, l, e⟩
      · cases hk
      · exact ⟨ms, l, by rw [e]; simp⟩
    subst e
    rw [List.length_append, List.length_singleton] at hk
    obtain ⟨ih1, ih2⟩ := mem_appends k ms (by omega)
    have e : piecesOf ((ms ++ [l]).map .append) = stack (piecesOf (ms.map .append)) (ms.sum, l) := by
      unfold piecesOf
      rw [List.map_append, List.foldl_append]
      show stack _ (topEnd (piecesOf (ms.map .append)), l) = _
      rw [ih2]
    have hend : ∀ p ∈ piecesOf (ms.map .append), p.level = 0 ∧ p.offset + p.len ≤ ms.sum := by
      intro p hp
      obtain ⟨a, x, b, rfl, rfl⟩ := (ih1 p).1 hp
      refine ⟨rfl, ?_⟩
      rw [List.sum_append, List.sum_cons]
      dsimp only
      omega
    have hm : ∀ p, p ∈ piecesOf ((ms ++ [l]).map .append) ↔ p = ⟨0, ms.sum, l⟩ ∨ p ∈ piecesOf (ms.map .append) := by
      intro p
      rw [e]
      refine mem_stack_apart fun p hp => ?_
      have := (hend p hp).2
      rw [hit_iff]
      dsimp only
      omega
    refine ⟨fun p => ?_, ?_⟩
    · rw [hm, ih1 p]
      constructor
      · rintro (rfl | ⟨a, x, b, rfl, rfl⟩)
        · exact ⟨ms, l, [], rfl, rfl⟩
        · exact ⟨a, x, b ++ [l], by simp, rfl⟩
      · rintro ⟨a, x, b, h, rfl⟩
        rcases List.eq_nil_or_concat b with rfl | ⟨b', y, rfl⟩
        · obtain ⟨h3, h4⟩ := List.append_inj' h rfl
          cases h4; subst h3
          exact Or.inl rfl
        · have h' : ms ++ [l] = (a ++ x :: b') ++ [y] := by rw [h]; simp
          obtain ⟨h3, h4⟩ := List.append_inj' h' rfl
          exact Or.inr ⟨a, x, b', h3, rfl⟩
    · refine topEnd_unique (topEnd_spec _) (Or.inr ⟨⟨0, ms.sum, l⟩, (hm _).2 (Or.inl rfl), fun q hq => ?_, fun q hq _ => ?_, ?_⟩)
      · rcases (hm q).1 hq with rfl | hq
        · exact Nat.le_refl _
        · rw [(hend q hq).1]; exact Nat.le_refl _
      · rcases (hm q).1 hq with rfl | hq
        · exact Nat.le_refl _
        · have := (hend q hq).2; dsimp only; omega
      · rw [List.sum_append]; simp

/-- A place below the end is in one of the blobs. -/
theorem blob_at : ∀ {ls : List Nat} {n : Nat}, n < ls.sum → ∃ a l b, ls = a ++ l :: b ∧ a.sum ≤ n ∧ n < a.sum + l
  | [], n, h => absurd h (by simp)
  | l :: ls, n, h => by
    rw [List.sum_cons] at h
    by_cases hn : n < l
    · exact ⟨[], l, ls, rfl, by simp, by simpa using hn⟩
    · obtain ⟨a, x, b, h1, h2, h3⟩ := blob_at (ls := ls) (n := n - l) (by omega)
      refine ⟨l :: a, x, b, by rw [h1]; rfl, ?_, ?_⟩ <;> rw [List.sum_cons] <;> omega

/-- After a cut within a blob the top end is at the cut, and another blob does not change that. -/
theorem cut_appends {ls : List Nat} {n : Nat} (hn : n < ls.sum) (hb : ∀ a b, ls = a ++ b → a.sum ≠ n) (l : Nat) :
    topEnd (piecesOf (ls.map .append ++ [.cut n])) = n ∧ topEnd (piecesOf (ls.map .append ++ [.cut n, .append l])) = n := by
  obtain ⟨h1, h2⟩ := mem_appends _ ls rfl
  obtain ⟨a, x, b, e, h3, h4⟩ := blob_at hn
  have h5 := hb _ _ e
  have hc1 : piecesOf (ls.map .append ++ [.cut n]) = cutAt (piecesOf (ls.map .append)) n := by
    unfold piecesOf; rw [List.foldl_append]; rfl
  have hp := (h1 ⟨0, a.sum, x⟩).2 ⟨a, x, b, e, rfl⟩
  have hl : 0 < levelOver (piecesOf (ls.map .append)) n := levelOver_above hp h4
  have hq : (⟨levelOver (piecesOf (ls.map .append)) n, a.sum, n - a.sum⟩ : Piece) ∈ cutAt (piecesOf (ls.map .append)) n :=
    mem_cutAt.2 (Or.inl ⟨_, hp, h4, by dsimp only; omega, rfl⟩)
  have hall : ∀ q ∈ cutAt (piecesOf (ls.map .append)) n, q.level ≤ levelOver (piecesOf (ls.map .append)) n ∧ q.offset + q.len ≤ n := by
    intro q hq
    rcases mem_cutAt.1 hq with ⟨r, hr, r1, r2, rfl⟩ | ⟨hq, hq'⟩
    · exact ⟨Nat.le_refl _, by dsimp only; omega⟩
    · obtain ⟨a', x', b', -, rfl⟩ := (h1 q).1 hq
      exact ⟨Nat.zero_le _, hq'⟩
  have ht : topEnd (cutAt (piecesOf (ls.map .append)) n) = n := by
    refine topEnd_unique (topEnd_spec _) (Or.inr ⟨_, hq, fun q hq => (hall q hq).1, fun q hq _ => ?_, ?_⟩)
    · have := (hall q hq).2; dsimp only; omega
    · dsimp only; omega
  rw [hc1]
  refine ⟨ht, ?_⟩
  have hc2 : piecesOf (ls.map .append ++ [.cut n, .append l]) = stack (cutAt (piecesOf (ls.map .append)) n) (n, l) := by
    have : piecesOf (ls.map .append ++ [.cut n, .append l]) =
        stack (cutAt (piecesOf (ls.map .append)) n) (topEnd (cutAt (piecesOf (ls.map .append)) n), l) := by
      unfold piecesOf; rw [List.foldl_append]; rfl
    rw [this, ht]
  rw [hc2]
  have hm : ∀ {p}, p ∈ stack (cutAt (piecesOf (ls.map .append)) n) (n, l) ↔ p = ⟨0, n, l⟩ ∨ p ∈ cutAt (piecesOf (ls.map .append)) n :=
    mem_stack_apart fun p hp => by
      have := (hall p hp).2
      rw [hit_iff]
      dsimp only
      omega
  refine topEnd_unique (topEnd_spec _) (Or.inr ⟨_, hm.2 (Or.inr hq), fun q hq => ?_, fun q hq hql => ?_, ?_⟩)
  · rcases hm.1 hq with rfl | hq
    · exact Nat.zero_le _
    · exact (hall q hq).1
  · rcases hm.1 hq with rfl | hq
    · have hql : 0 = levelOver (piecesOf (ls.map .append)) n := hql
      omega
    · have := (hall q hq).2; dsimp only; omega
  · dsimp only; omega

/-- All pieces are on level 0 and `m` is the furthest end. -/
def FlatPieces (ps : List Piece) (m : Nat) : Prop := (∀ p ∈ ps, p.level = 0 ∧ p.offset + p.len ≤ m) ∧ topEnd ps = m

theorem flat_appends : ∀ (ls : List Nat) {ps : List Piece} {m : Nat}, FlatPieces ps m → FlatPieces ((ls.map Change.append).foldl change ps) (m + ls.sum)
  | [], ps, m, h => h
  | l :: ls, ps, m, h => by
    rw [List.map_cons, List.foldl_cons, List.sum_cons, ← Nat.add_assoc]
    refine flat_appends ls ?_
    show FlatPieces (stack ps (topEnd ps, l)) (m + l)
    rw [h.2]
    have hm : ∀ {p}, p ∈ stack ps (m, l) ↔ p = ⟨0, m, l⟩ ∨ p ∈ ps := mem_stack_apart fun p hp => by
      have := (h.1 p hp).2
      rw [hit_iff]
      dsimp only
      omega
    have hall : ∀ p ∈ stack ps (m, l), p.level = 0 ∧ p.offset + p.len ≤ m + l := by
      intro p hp
      rcases hm.1 hp with rfl | hp
      · exact ⟨rfl, Nat.le_refl _⟩
      · have := h.1 p hp; exact ⟨this.1, by omega⟩
    refine ⟨hall, topEnd_unique (topEnd_spec _) (Or.inr ⟨_, hm.2 (Or.inl rfl), fun q hq => ?_, fun q hq _ => (hall q hq).2, rfl⟩)⟩
    rw [(hall q hq).1]; exact Nat.zero_le _

/-- A cut between two blobs. -/
theorem flat_cut {a b : List Nat} : FlatPieces (piecesOf ((a ++ b).map .append ++ [.cut a.sum])) a.sum := by
  obtain ⟨h1, h2⟩ := mem_appends _ (a ++ b) rfl
  have hc : piecesOf ((a ++ b).map .append ++ [.cut a.sum]) = cutAt (piecesOf ((a ++ b).map .append)) a.sum := by
    unfold piecesOf; rw [List.foldl_append]; rfl
  rw [hc]
  have hall : ∀ p ∈ cutAt (piecesOf ((a ++ b).map .append)) a.sum, p.level = 0 ∧ p.offset + p.len ≤ a.sum := by
    intro p hp
    rcases mem_cutAt.1 hp with ⟨q, hq, q1, q2, rfl⟩ | ⟨hp, hp'⟩
    · exfalso
      obtain ⟨x, l, y, e, rfl⟩ := (h1 q).1 hq
      dsimp only at q1 q2
      rcases List.append_eq_append_iff.1 e with ⟨z, hz, -⟩ | ⟨z, hz, e'⟩
      · rw [hz, List.sum_append] at q2; omega
      · cases z with
        | nil => rw [hz, List.append_nil] at q2; omega
        | cons v z =>
          have hv := (List.cons.inj e').1
          rw [hz, List.sum_append, List.sum_cons] at q1
          omega
    · obtain ⟨x, l, y, -, rfl⟩ := (h1 p).1 hp
      exact ⟨rfl, hp'⟩
  refine ⟨hall, ?_⟩
  rcases topEnd_spec (cutAt (piecesOf ((a ++ b).map .append)) a.sum) with ⟨e, h3⟩ | ⟨p, hp, -, h3, h4⟩
  · rw [h3]
    rcases List.eq_nil_or_concat a with rfl | ⟨c, l, rfl⟩
    · rfl
    · exfalso
      have : (⟨0, c.sum, l⟩ : Piece) ∈ cutAt (piecesOf ((c.concat l ++ b).map .append)) (c.concat l).sum :=
        mem_cutAt.2 (Or.inr ⟨(h1 _).2 ⟨c, l, b, by simp, rfl⟩, by simp⟩)
      rw [e] at this
      exact absurd this (by simp)
  · have h5 := (hall p hp).2
    rcases List.eq_nil_or_concat a with rfl | ⟨c, l, rfl⟩
    · have h5 : p.offset + p.len ≤ 0 := h5
      rw [h4]; show p.offset + p.len = 0; omega
    · have hm : (⟨0, c.sum, l⟩ : Piece) ∈ cutAt (piecesOf ((c.concat l ++ b).map .append)) (c.concat l).sum :=
        mem_cutAt.2 (Or.inr ⟨(h1 _).2 ⟨c, l, b, by simp, rfl⟩, by simp⟩)
      have h6 := h3 _ hm (by rw [(hall p hp).1])
      have h7 : (c.concat l).sum = c.sum + l := by simp
      dsimp only at h6
      omega

/-- Where the part of a write below `n` ends: at its end, at `n`, or there is none. -/
def endBelow (n : Nat) (x : Nat × Nat) : Nat := if x.1 + x.2 ≤ n then x.1 + x.2 else if x.1 < n then n else 0

theorem endBelow_le (n : Nat) (x : Nat × Nat) : endBelow n x ≤ n := by
  unfold endBelow; split
  · assumption
  · split <;> omega

/-- A cut through writes that do not overlap. -/
theorem cut_apart {ps : List Piece} {ws : List (Nat × Nat)} (h : ∀ p, p ∈ ps ↔ ∃ x ∈ ws, p = ⟨0, x.1, x.2⟩) (n : Nat) :
    topEnd (cutAt ps n) = (ws.map (endBelow n)).foldr max 0 := by
  have hall : ∀ q ∈ cutAt ps n, q.level ≤ levelOver ps n ∧ q.offset + q.len ≤ n := by
    intro q hq
    rcases mem_cutAt.1 hq with ⟨r, hr, r1, r2, rfl⟩ | ⟨hq, hq'⟩
    · exact ⟨Nat.le_refl _, by dsimp only; omega⟩
    · obtain ⟨x, -, rfl⟩ := (h q).1 hq
      exact ⟨Nat.zero_le _, hq'⟩
  have hle : (ws.map (endBelow n)).foldr max 0 ≤ n := by
    rcases foldr_max_mem (endBelow n) (l := ws) with e | ⟨x, -, e⟩
    · omega
    · rw [← e]; exact endBelow_le n x
  by_cases hc : ∃ x ∈ ws, x.1 < n ∧ n < x.1 + x.2
  · obtain ⟨x, hx, x1, x2⟩ := hc
    have h1 := foldr_max_le (endBelow n) hx
    have h2 : endBelow n x = n := by unfold endBelow; rw [if_neg (by omega), if_pos x1]
    refine topEnd_unique (topEnd_spec _) (Or.inr ⟨⟨levelOver ps n, x.1, n - x.1⟩, mem_cutAt.2 (Or.inl ⟨⟨0, x.1, x.2⟩, (h _).2 ⟨x, hx, rfl⟩, x2, x1, rfl⟩),
      fun q hq => (hall q hq).1, fun q hq _ => ?_, ?_⟩)
    · have := (hall q hq).2; dsimp only; omega
    · dsimp only; omega
  · have hm : ∀ q, q ∈ cutAt ps n ↔ ∃ x ∈ ws, x.1 + x.2 ≤ n ∧ q = ⟨0, x.1, x.2⟩ := by
      intro q
      rw [mem_cutAt]
      constructor
      · rintro (⟨r, hr, r1, r2, rfl⟩ | ⟨hq, hq'⟩)
        · obtain ⟨x, hx, rfl⟩ := (h r).1 hr
          exact absurd ⟨x, hx, r2, r1⟩ hc
        · obtain ⟨x, hx, rfl⟩ := (h q).1 hq
          exact ⟨x, hx, hq', rfl⟩
      · rintro ⟨x, hx, h1, rfl⟩
        exact Or.inr ⟨(h _).2 ⟨x, hx, rfl⟩, h1⟩
    have hz : ∀ x ∈ ws, ¬ x.1 + x.2 ≤ n → endBelow n x = 0 := by
      intro x hx hn
      unfold endBelow
      rw [if_neg hn, if_neg fun h1 => hc ⟨x, hx, h1, by omega⟩]
    rcases topEnd_spec (cutAt ps n) with ⟨e, h3⟩ | ⟨p, hp, -, h3, h4⟩
    · rw [h3]
      rcases foldr_max_mem (endBelow n) (l := ws) with e' | ⟨x, hx, e'⟩
      · exact e'.symm
      · rw [← e']
        refine (hz x hx fun h1 => ?_).symm
        have := (hm _).2 ⟨x, hx, h1, rfl⟩
        rw [e] at this
        exact absurd this (by simp)
    · obtain ⟨x, hx, x1, rfl⟩ := (hm p).1 hp
      have h5 := foldr_max_le (endBelow n) hx
      rw [endBelow, if_pos x1] at h5
      dsimp only at h4
      rcases foldr_max_mem (endBelow n) (l := ws) with e' | ⟨y, hy, e'⟩
      · omega
      · by_cases hy1 : y.1 + y.2 ≤ n
        · have := h3 _ ((hm _).2 ⟨y, hy, hy1, rfl⟩) rfl
          rw [endBelow, if_pos hy1] at e'
          dsimp only at this
          omega
        · rw [hz y hy hy1] at e'
          omega

theorem changesOf_writes : ∀ {cs : List Call}, OnlyWrites cs → changesOf cs = (writesOf cs).map fun w => .write w.1 w.2
  | [], h => rfl
  | c :: cs, h => by
    have ih := changesOf_writes (cs := cs) fun c hc => h c (by simp [hc])
    have h1 := h c (by simp)
    cases c with
    | write o d evs => exact congrArg (_ :: ·) ih
    | truncate n evs => exact absurd rfl (h1.1 n evs)
    | put d evs => exact absurd rfl (h1.2 d evs)
    | reopen => exact ih
    | length => exact ih
    | read a b evs => exact ih
    | get id evs => exact ih

theorem piecesOf_writes (ws : List (Nat × Nat)) : piecesOf (ws.map fun w => .write w.1 w.2) = pieces ws := by
  unfold piecesOf pieces
  rw [List.foldl_map]
  rfl

end Radix.Browser
