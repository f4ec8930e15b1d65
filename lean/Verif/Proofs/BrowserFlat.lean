import Verif.Proofs.BrowserSize

/-
Helper lemmas: files whose writes do not overlap. All chunks are at level 0.
-/

set_option linter.unusedVariables false

namespace Radix.Browser

open Radix.Spec (overwrite cut Shows Explains Possible record Contents nothing Unused reach)

/-- Two intervals, as offset and length, without a common byte and neither inside the other. -/
def Apart (a b : Nat × Nat) : Prop := a.1 + a.2 ≤ b.1 ∨ b.1 + b.2 ≤ a.1

theorem Apart.symm {a b : Nat × Nat} (h : Apart a b) : Apart b a := Or.symm h

theorem inTheWay_nil {cs : List Chunk} {offset : Nat} {data : Bytes} (h : ∀ c ∈ cs, Apart (c.offset, c.len) (offset, data.length)) :
    inTheWay cs offset data = [] := by
  apply List.eq_nil_iff_forall_not_mem.2
  intro c hc
  have h1 := mem_inTheWay.1 hc
  have h2 := h c h1.1
  unfold Apart at h2
  dsimp only at h2
  omega

/-- A write that overlaps nothing is one cache operation. -/
theorem write_apart {w : File} (h : Inv w) {offset : Nat} {data : Bytes}
    (ha : ∀ c ∈ w.chunks, Apart (c.offset, c.len) (offset, data.length)) :
    ∃ w' r, write offset data w = (r, w') ∧ w'.name = w.name ∧ CInv w'.name w'.cache ∧ (r ≠ .crash → Inv w') ∧
      (w'.cache = w.cache ∧ r ≠ .ok () ∨ w'.cache = w.cache.set (Chunk.request ⟨0, offset, data.length⟩ w.name) data ∧
        Chunk.Valid ⟨0, offset, data.length⟩) := by
  unfold write
  rw [bind_ok (x := self) rfl]
  have hnil := inTheWay_nil ha
  rcases add_spec w.chunks offset data h.valid with ⟨l, ops, e, hok, -, -, hl, -, -, hops⟩ | ⟨e, -⟩
  · rw [hops hnil] at e hok
    have hl0 : l = 0 := by
      rcases hl with hl | ⟨c, hc, -⟩
      · exact hl
      · rw [hnil] at hc; exact absurd hc (by simp)
    subst hl0
    rw [e, bind_ok (x := lift _) rfl]
    obtain ⟨cache', chunks', evs', r, k, hq, ex, hk, hc, hrk, hinv⟩ := exec_spec _ h hok
    have hci : CInv w.name cache' := by
      rw [hc]
      exact CInv.effects h.1 fun op hop => hok op (List.mem_of_mem_take hop)
    refine ⟨_, r, ex, rfl, hci, hinv, ?_⟩
    match k, hk with
    | 0, _ => exact Or.inl ⟨hc, fun hr => absurd (hrk hr) (by simp)⟩
    | k + 1, hk =>
      have hv : OpOk (Op.write ⟨0, offset, data.length⟩ data) := hok _ (by simp)
      refine Or.inr ⟨?_, hv.1⟩
      dsimp only
      rw [hc, List.take_of_length_le (by simp)]
      rfl
  · rw [e, bind_panic (x := lift _) rfl]
    exact ⟨w, .panic, rfl, rfl, h.1, fun _ => h, Or.inl ⟨rfl, by simp⟩⟩

/-- All chunks are at level 0 and apart. -/
def Flat (cs : List Chunk) : Prop := (∀ c ∈ cs, c.level = 0) ∧ ∀ c ∈ cs, ∀ d ∈ cs, c ≠ d → Apart (c.offset, c.len) (d.offset, d.len)

theorem getLast_spec {cs : List Chunk} (hs : Sorted cs) {l : Chunk} (h : cs.getLast? = some l) : l ∈ cs ∧ ∀ c ∈ cs, c = l ∨ c.lt l = true := by
  refine ⟨List.mem_of_getLast? h, fun c hc => ?_⟩
  obtain ⟨ys, rfl⟩ := List.getLast?_eq_some_iff.1 h
  rcases List.mem_append.1 hc with hc | hc
  · exact Or.inr ((List.pairwise_append.1 hs).2.2 c hc l (by simp))
  · exact Or.inl (List.mem_singleton.1 hc)

/-- Then the length is the largest end. -/
theorem flat_length {w : File} (hs : Sorted w.chunks) (hf : Flat w.chunks) : ∀ c ∈ w.chunks, c.offset + c.len ≤ length w := by
  intro c hc
  unfold length prev
  cases hl : w.chunks.getLast? with
  | none => rw [List.getLast?_eq_none_iff] at hl; rw [hl] at hc; exact absurd hc (by simp)
  | some l =>
    obtain ⟨h1, h2⟩ := getLast_spec hs hl
    show c.offset + c.len ≤ l.offset + l.len
    by_cases hcl : c = l
    · rw [hcl]; exact Nat.le_refl _
    · have h3 := lt_iff.1 ((h2 c hc).resolve_left hcl)
      have h4 := hf.2 c hc l h1 hcl
      have h5 := hf.1 c hc
      have h6 := hf.1 l h1
      unfold Apart at h4
      dsimp only at h4
      omega

/-! ### Histories of writes that do not overlap -/

/-- The writes of a history: offsets and lengths. -/
def writesOf : List Call → List (Nat × Nat)
  | [] => []
  | .write offset data _ :: cs => (offset, data.length) :: writesOf cs
  | _ :: cs => writesOf cs

/-- The history only writes, reads and opens. -/
def OnlyWrites (cs : List Call) : Prop := ∀ c ∈ cs, (∀ n evs, c ≠ .truncate n evs) ∧ ∀ d evs, c ≠ .put d evs

/-- All writes of the log returned `Ok`. -/
def WritesOk (l : List (Call × Seen)) : Prop := ∀ e ∈ l, ∀ o d evs, e.1 = .write o d evs → e.2 = .done (.ok ())

/-- The chunks are the writes. -/
def Exact (cs : List Chunk) (ws : List (Nat × Nat)) : Prop := ∀ c, c ∈ cs ↔ ∃ x ∈ ws, c = ⟨0, x.1, x.2⟩

theorem Exact.flat {cs : List Chunk} {ws : List (Nat × Nat)} (h : Exact cs ws) (hp : ws.Pairwise Apart) : Flat cs := by
  refine ⟨fun c hc => ?_, fun c hc d hd hcd => ?_⟩
  · obtain ⟨x, -, rfl⟩ := (h c).1 hc; rfl
  · obtain ⟨x, hx, rfl⟩ := (h c).1 hc
    obtain ⟨y, hy, rfl⟩ := (h d).1 hd
    have hxy : x ≠ y := fun e => hcd (by rw [e])
    exact List.Pairwise.forall_of_forall_of_flip (R := fun a b => a ≠ b → Apart a b) (by intro a _ h; exact absurd rfl h)
      (hp.imp fun {a b} (h : Apart a b) (_ : a ≠ b) => h) (hp.imp fun {a b} (h : Apart a b) (_ : b ≠ a) => h.symm) hx hy hxy

theorem step_exact {w : World} {ws : List (Nat × Nat)} (h : WInv w) (he : Exact (chunksOf w.cache w.name) ws) {c : Call}
    (hp : (ws ++ writesOf [c]).Pairwise Apart) (hc : (∀ n evs, c ≠ .truncate n evs) ∧ ∀ d evs, c ≠ .put d evs)
    (hok : ∀ o d evs, c = .write o d evs → (step w c).1 = .done (.ok ())) :
    Exact (chunksOf (step w c).2.cache w.name) (ws ++ writesOf [c]) := by
  cases c with
  | truncate n evs => exact absurd rfl (hc.1 n evs)
  | put d evs => exact absurd rfl (hc.2 d evs)
  | reopen => rw [show writesOf [_] = [] from rfl, List.append_nil]; exact he
  | length =>
    rw [show writesOf [_] = [] from rfl, List.append_nil]
    unfold step
    cases hh : w.handle <;> exact he
  | read a b evs =>
    rw [show writesOf [_] = [] from rfl, List.append_nil]
    unfold step
    cases hh : w.handle with
    | none => exact he
    | some cs =>
      dsimp only
      rw [cache_after, cache_reader (reader_read _)]
      exact he
  | get id evs =>
    rw [show writesOf [_] = [] from rfl, List.append_nil]
    unfold step
    cases hh : w.handle with
    | none => exact he
    | some cs =>
      dsimp only
      split
      · dsimp only
        rw [cache_after, cache_reader (reader_loadPrefixed _)]
        exact he
      · exact he
  | write o d evs =>
    have hok := hok o d evs rfl
    unfold step at hok ⊢
    cases hh : w.handle with
    | none => rw [hh] at hok; exact absurd hok (by simp)
    | some cs =>
      rw [hh] at hok
      dsimp only at hok ⊢
      rw [cache_after]
      have hi := h.file hh evs
      have hcs : cs = chunksOf w.cache w.name := hi.2
      rw [writesOf, writesOf] at hp ⊢
      have ha : ∀ c ∈ cs, Apart (c.offset, c.len) (o, d.length) := by
        intro c hc
        rw [hcs] at hc
        obtain ⟨x, hx, rfl⟩ := (he c).1 hc
        exact (List.pairwise_append.1 hp).2.2 x hx _ (by simp)
      obtain ⟨w', r, e, hn, hci, hinv, hcase⟩ := write_apart hi ha
      rw [e] at hok ⊢
      dsimp only at hok ⊢
      have hr : r = .ok () := Seen.done.inj hok
      have hcase := hcase.resolve_left fun h => h.2 hr
      rw [hcase.1]
      intro c
      show c ∈ chunksOf (w.cache.set (Chunk.request ⟨0, o, d.length⟩ w.name) d) w.name ↔ _
      rw [chunksOf_set h.1 hcase.2, mem_insert, he c]
      constructor
      · rintro (rfl | ⟨x, hx, rfl⟩)
        · exact ⟨(o, d.length), by simp, rfl⟩
        · exact ⟨x, by simp [hx], rfl⟩
      · rintro ⟨x, hx, rfl⟩
        rcases List.mem_append.1 hx with hx | hx
        · exact Or.inr ⟨x, hx, rfl⟩
        · rw [List.mem_singleton.1 hx]; exact Or.inl rfl

theorem writesOf_cons (c : Call) (cs : List Call) : writesOf (c :: cs) = writesOf [c] ++ writesOf cs := by
  cases c <;> rfl

theorem run_exact : ∀ (cs : List Call) {w : World} {ws : List (Nat × Nat)} (h : WInv w) (he : Exact (chunksOf w.cache w.name) ws)
    (hp : (ws ++ writesOf cs).Pairwise Apart) (hc : OnlyWrites cs) (hok : WritesOk (log w cs)),
    Exact (chunksOf (run w cs).cache w.name) (ws ++ writesOf cs)
  | [], w, ws, h, he, hp, hc, hok => by rw [writesOf, List.append_nil]; exact he
  | c :: cs, w, ws, h, he, hp, hc, hok => by
    rw [writesOf_cons, ← List.append_assoc] at hp ⊢
    obtain ⟨-, h2, h3, -⟩ := step_spec h c
    have h4 := step_exact h he (List.pairwise_append.1 hp).1 (hc c (by simp)) fun o d evs hcw =>
      hok (c, (step w c).1) (by simp [log]) o d evs hcw
    have := run_exact cs h2 (by rw [h3]; exact h4) hp (fun x hx => hc x (by simp [hx])) fun e he =>
      hok e (by unfold log; exact List.mem_cons_of_mem _ he)
    rw [h3] at this
    exact this

theorem foldr_max_spec {ws : List (Nat × Nat)} : (∀ x ∈ ws, x.1 + x.2 ≤ ws.foldr (fun x m => max (x.1 + x.2) m) 0) ∧
    (ws = [] ∨ ∃ x ∈ ws, x.1 + x.2 = ws.foldr (fun x m => max (x.1 + x.2) m) 0) := by
  induction ws with
  | nil => simp
  | cons a ws ih =>
    constructor
    · intro x hx
      rw [List.foldr_cons]
      rcases List.mem_cons.1 hx with rfl | hx
      · omega
      · have := ih.1 x hx; omega
    · right
      rw [List.foldr_cons]
      by_cases h : List.foldr (fun x m => max (x.1 + x.2) m) 0 ws ≤ a.1 + a.2
      · exact ⟨a, by simp, by omega⟩
      · rcases ih.2 with rfl | ⟨x, hx, he⟩
        · simp at h
        · exact ⟨x, by simp [hx], by omega⟩

end Radix.Browser
