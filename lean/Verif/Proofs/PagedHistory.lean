import Verif.Proofs.Paged

/-
Proof-internal: histories of calls of a paged file store.
-/

set_option linter.unusedVariables false

namespace Radix.Paged

/-- The call was a write of `d` that returned the id `id`. -/
def Wrote (e : Op × Seen) (d id : Bytes) : Prop := ∃ evs, e = (.write d evs, .bytes (.ok id))

variable {dbg : Bool} {w : Inner} {q : Prop} {ps c : Nat} {H B : Bytes} {l : List (Op × Seen)}

theorem At.weaken {q' : Prop} (h : At q ps c H B w) (hq : q' → q) : At q' ps c H B w :=
  ⟨h.data, h.hlen, h.ok, h.max, h.psz, h.last, h.recent, fun hh => h.quiet (hq hh)⟩

/-- Everything that the log says was written is in the file. -/
def Safe (ps c : Nat) (B : Bytes) (l : List (Op × Seen)) : Prop :=
  ∀ e ∈ l, ∀ d id, Wrote e d id → id.length = 8 ∧ ofBE id ≤ c ∧ RecAt B (ofBE id) d ∧ d.length + 4 ≤ ofBE id % ps

/-- The states that histories reach. -/
def Inv (ps : Nat) (W : World) (l : List (Op × Seen)) : Prop :=
  (W = fresh ∧ ∀ e ∈ l, ∀ d id, ¬ Wrote e d id) ∨
  ∃ c H B w, At False ps c H B w ∧ Safe ps c B l ∧ W.file = w.data ∧ (W.store = none ∨ W.store = some w)

theorem safe_snoc {e : Op × Seen} (h : Safe ps c B l) (he : ∀ d id, ¬ Wrote e d id) : Safe ps c B (l ++ [e]) := by
  intro e' he' d id hw
  rcases List.mem_append.1 he' with he' | he'
  · exact h e' he' d id hw
  · cases List.mem_singleton.1 he'; exact absurd hw (he d id)

theorem safe_grow (tl : Bytes) (h : Safe ps c B l) : Safe ps c (B ++ tl) l := by
  intro e he d id hw
  obtain ⟨h1, h2, h3, h4⟩ := h e he d id hw
  exact ⟨h1, h2, rec_grow _ h3, h4⟩

theorem hoare_cases {α : Type} {x : M α} {why : Prop} {ok : α → Inner → Prop} {bad : Inner → Prop}
    (h : Hoare x w why ok bad) :
    (∃ a w', x w = (.ok a, w') ∧ ok a w') ∨ (∃ w', (x w = (.err, w') ∨ x w = (.crash, w')) ∧ why ∧ bad w') := by
  unfold Hoare at h
  rcases e : x w with ⟨_ | _ | _ | _, w1⟩ <;> rw [e] at h
  · exact Or.inl ⟨_, _, rfl, h⟩
  · exact Or.inr ⟨_, Or.inl rfl, h⟩
  · exact h.elim
  · exact Or.inr ⟨_, Or.inr rfl, h⟩

/-- The events of a call are all harmless. -/
def NoFault (evs : List Ev) : Prop := ∀ e ∈ evs, e = Ev.ok

theorem at_call (h : At False ps c H B w) (evs : List Ev) : At (NoFault evs) ps c H B { w with evs := evs } :=
  ⟨h.data, h.hlen, h.ok, h.max, h.psz, h.last, h.recent, fun hh => hh⟩

theorem hoare_write {d : Bytes} (h : At q ps c H B w) (h8 : 8 ≤ ps) (h32 : d.length ≤ ps - 8 → d.length < 2 ^ 32) :
    Hoare (write dbg d) w (¬ q ∨ ps - 8 < d.length ∨ maxFile < B.length + ps + d.length + 4100)
      (fun i w' => ∃ id H' tl, i = toBE 8 id ∧ At q ps id H' (B ++ tl) w' ∧ id = (B ++ tl).length ∧ RecAt (B ++ tl) id d ∧
        d.length + 4 ≤ id % ps ∧ B.length < id ∧ w'.lastId = id ∧ hdr H' = id)
      (fun w' => ∃ H' tl, At q ps c H' (B ++ tl) w') := by
  refine hoare_bind (hoare_weaken (hoare_append h h8 h32) (fun hh => hh) ?_ (fun _ hh => hh))
  rintro id w' ⟨H', tl, h1, h2, h3⟩
  refine hoare_pure ⟨id, H', tl, rfl, h1, h2, h3.1, h3.2.1, h3.2.2.1, h3.2.2.2, ?_⟩
  obtain ⟨k1, k2, k3, _⟩ := h1.ok
  have := k3 0 (by rw [← h2])
  simpa using this

/-- In builds with overflow checks, ids that overflow do not change the state. -/
theorem bytes_overflow {id : Nat} (hB : w.lastId < 2 ^ 63) (hb : id = 0 ∨ ¬ id + 4096 < 2 ^ 64) :
    (bytes true id w).2 = w := by
  rcases hb with rfl | hb
  · rfl
  · have h1 : ¬ page (id - 1) w.pageSize < page w.lastId w.pageSize := by
      have := Nat.div_le_div_right (c := w.pageSize) (show w.lastId ≤ id - 1 by omega)
      simp only [page]; omega
    show (M.bind self (fun w => M.bind (sub64 true id 1) _) w).2 = w
    simp only [M.bind, self, sub64, if_pos (show 1 ≤ id by omega), pure, M.pure, if_neg h1]
    have h4 : 4 ≤ id := by omega
    have h5 : ¬ id + headerSize < 2 ^ 64 := by rw [headerSize_eq]; exact hb
    split
    · rename_i hs
      rw [Option.isSome_iff_exists] at hs
      obtain ⟨x, hx⟩ := hs
      simp [bind, M.bind, self, hx, M.pure]
    · simp [bind, M.bind, loadRecent, ensure, h4, add64, h5, panic, pure, M.pure]

/-- What is known about the outcome of a call, given what was called before it. -/
def Fine (dbg : Bool) (ps : Nat) (W : World) (l : List (Op × Seen)) : Op × Seen → Prop
  | (.open evs, r) => ∃ x, r = .opened x ∧ x ≠ .panic ∧
      (NoFault evs → ps % 8 = 0 → W.file.length < 2 ^ 62 → x = .ok ())
  | (.write d evs, r) => W.store = none ∧ r = .closed ∨ ∃ x, W.store ≠ none ∧ r = .bytes x ∧ x ≠ .panic ∧
      (∀ id, x = .ok id → id.length = 8 ∧ ∀ e ∈ l, ∀ d', ¬ Wrote e d' id) ∧
      (NoFault evs → d.length ≤ ps - 8 → W.file.length + ps + d.length + 4 ≤ maxFile → ∃ id, x = .ok id)
  | (.read id evs, r) => W.store = none ∧ r = .closed ∨ ∃ x, W.store ≠ none ∧ r = .bytes x ∧
      (id.length = 8 → dbg = false ∨ 1 ≤ ofBE id ∧ ofBE id + 4096 < 2 ^ 64 → x ≠ .panic) ∧
      ∀ e ∈ l, ∀ d, Wrote e d id → x = .ok d ∨ ¬ NoFault evs ∧ (x = .err ∨ x = .crash)
  | (.lastId, r) => True

/-- The blobs that are written have less than `2 ^ 32` bytes, or are refused because they do not fit a page. -/
def Small (ps : Nat) (op : Op) : Prop := ∀ d evs, op = .write d evs → d.length ≤ ps - 8 → d.length < 2 ^ 32

theorem fine_step {W : World} (h8 : 8 ≤ ps) (h : Inv ps W l) (op : Op) (h32 : Small ps op) :
    Fine dbg ps W l (op, (step dbg ps W op).1) ∧ Inv ps (step dbg ps W op).2 (l ++ [(op, (step dbg ps W op).1)]) := by
  cases op with
  | «open» evs =>
    have hnw : ∀ (r : Seen) d id, ¬ Wrote (Op.open evs, r) d id := by rintro r d id ⟨_, hh⟩; cases hh
    rcases h with ⟨rfl, hl⟩ | ⟨c, H, B, w, hat, hs, hf, hst⟩
    · have hh := hoare_new_empty (dbg := dbg) (w := ⟨[], 0, ps, [], [], 0, evs⟩) (q := NoFault evs) (ps := ps) rfl rfl rfl rfl
        (fun hh => hh)
      have hl' : ∀ (r : Seen), ∀ e ∈ l ++ [(Op.open evs, r)], ∀ d id, ¬ Wrote e d id := by
        intro r e he
        rcases List.mem_append.1 he with he | he
        · exact hl e he
        · cases List.mem_singleton.1 he; exact hnw r
      simp only [step, fresh]
      rcases hoare_cases hh with ⟨a, w', e, H', B', g1, g2, g3⟩ | ⟨w', e, hwhy, g⟩
      · rw [e]
        refine ⟨⟨_, rfl, by simp, fun _ _ _ => rfl⟩, Or.inr ⟨0, H', B', w', g1.weaken False.elim, ?_, rfl, Or.inr rfl⟩⟩
        intro e he d id hw
        exact absurd hw (hl' _ e he d id)
      · have e2 : (new dbg ⟨[], 0, ps, [], [], 0, evs⟩).2 = w' := by rcases e with e | e <;> rw [e]
        have e1 : (new dbg ⟨[], 0, ps, [], [], 0, evs⟩).1 = .err ∨ (new dbg ⟨[], 0, ps, [], [], 0, evs⟩).1 = .crash := by
          rcases e with e | e <;> rw [e] <;> simp
        refine ⟨⟨_, rfl, by rcases e1 with e1 | e1 <;> rw [e1] <;> simp, fun a b _ => ?_⟩, ?_⟩
        · rcases hwhy with hh | hh
          · exact absurd a hh
          · exact absurd b hh
        · rw [e2]
          have hnone : ∀ x : Out Unit, (x = .err ∨ x = .crash) → (match x with
              | .ok _ => (⟨w'.data, some w'⟩ : World)
              | _ => ⟨w'.data, none⟩) = ⟨w'.data, none⟩ := by
            rintro x (rfl | rfl) <;> rfl
          have hnone := hnone _ e1
          suffices hI : Inv ps ⟨w'.data, none⟩ (l ++ [(Op.open evs,
              Seen.opened (new dbg ⟨[], 0, ps, [], [], 0, evs⟩).1)]) by
            rcases e1 with e1 | e1 <;> rw [e1] at hI ⊢ <;> exact hI
          rcases g with g | ⟨H', B', g⟩
          · rw [g]; exact Or.inl ⟨rfl, hl' _⟩
          · refine Or.inr ⟨0, H', B', w', g.weaken False.elim, ?_, rfl, Or.inl rfl⟩
            intro e he d id hw
            exact absurd hw (hl' _ e he d id)
    · have hat' : At (NoFault evs) ps c H B ⟨W.file, 0, ps, [], [], 0, evs⟩ :=
        ⟨by rw [hf, hat.data], hat.hlen, hat.ok, hat.max, rfl, Nat.zero_le _, by simp, fun hh => hh⟩
      have hlen := hat.len
      have keep : ∀ B', Kept c B B' → ∀ r : Seen, Safe ps c B' (l ++ [(Op.open evs, r)]) := by
        intro B' hk r
        refine safe_snoc (fun e he d id hw => ?_) (hnw r)
        obtain ⟨h1, h2, h3, h4⟩ := hs e he d id hw
        exact ⟨h1, h2, hk _ _ h2 h3, h4⟩
      simp only [step]
      rcases hoare_cases (hoare_new (dbg := dbg) hat') with ⟨a, w', e, H', B', g1, g2, g3⟩ | ⟨w', e, hwhy, g1⟩
      · rw [e]
        exact ⟨⟨_, rfl, by simp, fun _ _ _ => rfl⟩,
          Or.inr ⟨c, H', B', w', g1.weaken False.elim, keep B' g2 _, rfl, Or.inr rfl⟩⟩
      · have e2 : (new dbg ⟨W.file, 0, ps, [], [], 0, evs⟩).2 = w' := by rcases e with e | e <;> rw [e]
        have e1 : (new dbg ⟨W.file, 0, ps, [], [], 0, evs⟩).1 = .err ∨ (new dbg ⟨W.file, 0, ps, [], [], 0, evs⟩).1 = .crash := by
          rcases e with e | e <;> rw [e] <;> simp
        refine ⟨⟨_, rfl, by rcases e1 with e1 | e1 <;> rw [e1] <;> simp, fun a b hlt => ?_⟩, ?_⟩
        · rcases hwhy with hh | hh | hh
          · exact absurd a hh
          · rw [hf] at hlt; omega
          · exact absurd b hh
        · rw [e2]
          refine Or.inr ⟨c, H, B, w', g1.weaken False.elim, keep B (fun _ _ _ hh => hh) _, ?_⟩
          rcases e1 with e1 | e1 <;> rw [e1] <;> exact ⟨rfl, Or.inl rfl⟩
  | write d evs =>
    cases hst : W.store with
    | none =>
      simp only [step, hst]
      have hnw : ∀ d' id, ¬ Wrote (Op.write d evs, Seen.closed) d' id := by
        rintro d' id ⟨_, hh⟩; cases hh
      refine ⟨Or.inl ⟨hst, rfl⟩, ?_⟩
      rcases h with ⟨rfl, hl⟩ | ⟨c, H, B, w, hat, hs, hf, hst'⟩
      · refine Or.inl ⟨rfl, fun e he => ?_⟩
        rcases List.mem_append.1 he with he | he
        · exact hl e he
        · cases List.mem_singleton.1 he; exact hnw
      · exact Or.inr ⟨c, H, B, w, hat, safe_snoc hs hnw, hf, Or.inl hst⟩
    | some s =>
      rcases h with ⟨rfl, hl⟩ | ⟨c, H, B, w, hat, hs, hf, hst'⟩
      · cases hst
      obtain rfl : s = w := by
        rcases hst' with hh | hh <;> rw [hst] at hh
        · cases hh
        · exact Option.some.inj hh
      simp only [step, hst]
      have hlen := hat.len
      rcases hoare_cases (hoare_write (dbg := dbg) (d := d) (at_call hat evs) h8 (h32 _ _ rfl)) with
        ⟨i, w', e, id, H', tl, rfl, g1, g2, g3, g4, g5, g6, g7⟩ | ⟨w', e, hwhy, H', tl, g⟩
      · rw [e]
        have hid : ofBE (toBE 8 id) = id := by
          have := g1.max
          simp only [maxFile] at this
          exact ofBE_toBE_lt (by rw [g2]; omega)
        have hnew : ∀ e ∈ l, ∀ d', ¬ Wrote e d' (toBE 8 id) := by
          intro e he d' hw
          obtain ⟨_, h2, _⟩ := hs e he d' _ hw
          have := hat.ok.1
          rw [hid] at h2
          omega
        refine ⟨Or.inr ⟨_, by rw [hst]; simp, rfl, by simp, ?_, fun _ _ _ => ⟨_, rfl⟩⟩,
          Or.inr ⟨id, H', B ++ tl, w', g1.weaken False.elim, ?_, rfl, Or.inr rfl⟩⟩
        · intro i hi
          cases hi
          exact ⟨toBE_length _ _, hnew⟩
        · intro e he d' i hw
          rcases List.mem_append.1 he with he | he
          · obtain ⟨h1, h2, h3, h4⟩ := hs e he d' i hw
            have := hat.ok.1
            exact ⟨h1, by omega, rec_grow _ h3, h4⟩
          · cases List.mem_singleton.1 he
            obtain ⟨_, hw⟩ := hw
            cases hw
            rw [hid]
            exact ⟨toBE_length _ _, Nat.le_refl _, g3, g4⟩
      · refine ⟨Or.inr ⟨_, by rw [hst]; simp, rfl, ?_, ?_, ?_⟩, Or.inr ⟨c, H', B ++ tl, w', g.weaken False.elim, ?_, ?_⟩⟩
        · rcases e with e | e <;> rw [e] <;> simp
        · rcases e with e | e <;> rw [e] <;> simp
        · intro a b hc
          rcases hwhy with hh | hh | hh
          · exact absurd a hh
          · omega
          · rw [hf] at hc; omega
        · refine safe_snoc (safe_grow tl hs) ?_
          rintro d' i ⟨_, hw⟩
          rcases e with e | e <;> rw [e] at hw <;> cases hw
        · rcases e with e | e <;> rw [e]
          · exact ⟨rfl, Or.inr rfl⟩
          · exact ⟨rfl, Or.inl rfl⟩
  | read id evs =>
    have hnw : ∀ (r : Seen) d' i, ¬ Wrote (Op.read id evs, r) d' i := by
      rintro r d' i ⟨_, hh⟩; cases hh
    cases hst : W.store with
    | none =>
      simp only [step, hst]
      refine ⟨Or.inl ⟨hst, rfl⟩, ?_⟩
      rcases h with ⟨rfl, hl⟩ | ⟨c, H, B, w, hat, hs, hf, hst'⟩
      · refine Or.inl ⟨rfl, fun e he => ?_⟩
        rcases List.mem_append.1 he with he | he
        · exact hl e he
        · cases List.mem_singleton.1 he; exact hnw _
      · exact Or.inr ⟨c, H, B, w, hat, safe_snoc hs (hnw _), hf, Or.inl hst⟩
    | some s =>
      rcases h with ⟨rfl, hl⟩ | ⟨c, H, B, w, hat, hs, hf, hst'⟩
      · cases hst
      obtain rfl : s = w := by
        rcases hst' with hh | hh <;> rw [hst] at hh
        · cases hh
        · exact Option.some.inj hh
      simp only [step, hst]
      have hat' := at_call hat evs
      have hlen := hat.len
      have hmax := hat.max
      simp only [maxFile] at hmax
      have hlast := hat.last
      by_cases hi : id.length = 8
      · have hlt : ofBE id < 2 ^ 64 := by
          have := ofBE_lt id
          rw [hi] at this; exact this
        have hrd : read dbg id = bytes dbg (ofBE id) := by simp [read, hi]
        rw [hrd]
        by_cases hd : dbg = false ∨ 1 ≤ ofBE id ∧ ofBE id + 4096 < 2 ^ 64
        · rcases hoare_cases (hoare_bytes hat' (by omega) hlt hd) with
            ⟨x, w', e, ⟨g1, g2⟩, g3⟩ | ⟨w', e, hwhy, g1, g2⟩
          · rw [e]
            refine ⟨Or.inr ⟨_, by rw [hst]; simp, rfl, by simp, fun e he d hw => ?_⟩,
              Or.inr ⟨c, H, B, w', g1.weaken False.elim, safe_snoc hs (hnw _), rfl, Or.inr rfl⟩⟩
            obtain ⟨_, _, h3, h4⟩ := hs e he d id hw
            rw [g3 d h3 h4]; exact Or.inl rfl
          · refine ⟨Or.inr ⟨_, by rw [hst]; simp, rfl, ?_, fun e' he d hw => ?_⟩,
              Or.inr ⟨c, H, B, w', g1.weaken False.elim, safe_snoc hs (hnw _), ?_⟩⟩
            · rcases e with e | e <;> rw [e] <;> simp
            · obtain ⟨_, _, h3, h4⟩ := hs e' he d id hw
              refine Or.inr ⟨fun hh => hwhy ⟨hh, d, h3, h4⟩, ?_⟩
              rcases e with e | e <;> rw [e] <;> simp
            · rcases e with e | e <;> rw [e]
              · exact ⟨rfl, Or.inr rfl⟩
              · exact ⟨rfl, Or.inl rfl⟩
        · have hov : ofBE id = 0 ∨ ¬ ofBE id + 4096 < 2 ^ 64 := by
            by_cases h0 : ofBE id = 0
            · exact Or.inl h0
            · refine Or.inr fun hx => hd (Or.inr ⟨by omega, hx⟩)
          have hdt : dbg = true := by
            cases dbg
            · exact absurd (Or.inl rfl) hd
            · rfl
          subst hdt
          have hsame := bytes_overflow (w := { s with evs := evs }) (id := ofBE id) (by dsimp only; omega) hov
          refine ⟨Or.inr ⟨_, by rw [hst]; simp, rfl, fun _ hh => absurd hh hd, fun e he d hw => ?_⟩,
            Or.inr ⟨c, H, B, { s with evs := evs }, hat'.weaken False.elim, safe_snoc hs (hnw _), ?_⟩⟩
          · obtain ⟨_, h2, h3, h4⟩ := hs e he d id hw
            have := h3.2.1
            have r := (rec_size h3).1
            rcases hov with hh | hh
            · rw [hh] at r; omega
            · omega
          · unfold after
            rw [hsame]
            split
            · exact ⟨rfl, Or.inl rfl⟩
            · exact ⟨rfl, Or.inr rfl⟩
      · have hrd : read dbg id = panic := by simp [read, hi]
        rw [hrd]
        refine ⟨Or.inr ⟨_, by rw [hst]; simp, rfl, fun hh => absurd hh hi, fun e he d hw => ?_⟩,
          Or.inr ⟨c, H, B, { s with evs := evs }, hat'.weaken False.elim, safe_snoc hs (hnw _), rfl, Or.inr rfl⟩⟩
        exact absurd (hs e he d id hw).1 hi
  | lastId =>
    have hnw : ∀ (r : Seen) d' i, ¬ Wrote (Op.lastId, r) d' i := by
      rintro r d' i ⟨_, hh⟩; cases hh
    refine ⟨trivial, ?_⟩
    have hW : (step dbg ps W .lastId).2 = W := by
      simp only [step]; cases W.store <;> rfl
    rw [hW]
    rcases h with ⟨rfl, hl⟩ | ⟨c, H, B, w, hat, hs, hf, hst'⟩
    · refine Or.inl ⟨rfl, fun e he => ?_⟩
      rcases List.mem_append.1 he with he | he
      · exact hl e he
      · cases List.mem_singleton.1 he; exact hnw _
    · exact Or.inr ⟨c, H, B, w, hat, safe_snoc hs (hnw _), hf, hst'⟩

theorem inv_run (h8 : 8 ≤ ps) (ops : List Op) : ∀ {W : World} {l : List (Op × Seen)}, (∀ op ∈ ops, Small ps op) → Inv ps W l →
    Inv ps (run dbg ps W ops) (l ++ log dbg ps W ops) := by
  induction ops with
  | nil => intro W l _ h; simpa [run, log] using h
  | cons op ops ih =>
    intro W l hs h
    have := ih (fun op' ho => hs op' (List.mem_cons_of_mem _ ho))
      (fine_step (dbg := dbg) h8 h op (hs op List.mem_cons_self)).2
    simpa [run, log] using this

theorem inv_fresh : Inv ps fresh [] := Or.inl ⟨rfl, by simp⟩

theorem log_split (ops : List Op) : ∀ {W : World} {pre post : List (Op × Seen)} {e : Op × Seen},
    log dbg ps W ops = pre ++ e :: post → ∃ ops1 op ops2, ops = ops1 ++ op :: ops2 ∧ pre = log dbg ps W ops1 ∧
      e = (op, (step dbg ps (run dbg ps W ops1) op).1) ∧
      post = log dbg ps (step dbg ps (run dbg ps W ops1) op).2 ops2 := by
  induction ops with
  | nil => intro W pre post e h; simp [log] at h
  | cons op ops ih =>
    intro W pre post e h
    simp only [log] at h
    cases pre with
    | nil =>
      simp only [List.nil_append, List.cons.injEq] at h
      exact ⟨[], op, ops, rfl, rfl, h.1.symm, h.2.symm⟩
    | cons e' pre =>
      simp only [List.cons_append, List.cons.injEq] at h
      obtain ⟨ops1, op', ops2, h1, h2, h3, h4⟩ := ih h.2
      exact ⟨op :: ops1, op', ops2, by rw [h1]; rfl, by rw [log, h2, h.1], h3, h4⟩

/-- A blob that does not fit a page is refused. -/
theorem write_large {d : Bytes} (h8 : 8 ≤ ps) (hp : w.pageSize = ps) (hd : ps - 8 < d.length) :
    write dbg d w = (.err, w) := by
  subst hp
  have : ¬ d.length ≤ w.pageSize - 8 := by omega
  simp [write, append, bind, M.bind, self, sub64, h8, pure, M.pure, ensure, this, fail]

/-- The last write of blob data is complete, and nothing was written after it. -/
def Clean (ps n : Nat) (W : World) : Prop :=
  ∃ H B w, At False ps n H B w ∧ B.length = n ∧ W.file = w.data ∧ (W.store = none ∨ W.store = some w ∧ w.lastId = n)

theorem At.hdr_eq {n : Nat} (h : At q ps n H B w) (hb : B.length = n) : hdr H = n := by
  have := h.ok.2.2.1 0 (by rw [hb])
  simpa using this

theorem clean_step {W : World} {n : Nat} (h8 : 8 ≤ ps) (h : Clean ps n W) (op : Op)
    (hop : ∀ d evs, op = .write d evs → ps - 8 < d.length) :
    Clean ps n (step dbg ps W op).2 := by
  obtain ⟨H, B, w, hat, hn, hf, hst⟩ := h
  cases op with
  | «open» evs =>
    have hat' : At (NoFault evs) ps n H B ⟨W.file, 0, ps, [], [], 0, evs⟩ :=
      ⟨by rw [hf, hat.data], hat.hlen, hat.ok, hat.max, rfl, Nat.zero_le _, by simp, fun hh => hh⟩
    simp only [step]
    rcases hoare_cases (hoare_new (dbg := dbg) hat') with ⟨a, w', e, H', B', g1, g2, g3, g4⟩ | ⟨w', e, hwhy, g1⟩
    · rw [e]
      rw [hat.hdr_eq hn] at g4
      exact ⟨H', B', w', g1.weaken False.elim, by omega, rfl, Or.inr ⟨rfl, g4⟩⟩
    · refine ⟨H, B, w', g1.weaken False.elim, hn, ?_⟩
      rcases e with e | e <;> rw [e] <;> exact ⟨rfl, Or.inl rfl⟩
  | write d evs =>
    simp only [step]
    rcases hst with hst | ⟨hst, hl⟩
    · rw [hst]; exact ⟨H, B, w, hat, hn, hf, Or.inl hst⟩
    · rw [hst]
      dsimp only
      rw [write_large h8 (w := { w with evs := evs }) (by exact hat.psz) (hop d evs rfl)]
      exact ⟨H, B, _, (at_call hat evs).weaken False.elim, hn, rfl, Or.inr ⟨rfl, hl⟩⟩
  | read id evs =>
    simp only [step]
    rcases hst with hst | ⟨hst, hl⟩
    · rw [hst]; exact ⟨H, B, w, hat, hn, hf, Or.inl hst⟩
    · rw [hst]
      have hat' := at_call hat evs
      have hmax := hat.max
      simp only [maxFile] at hmax
      have hlast := hat.last
      have same : ∀ x : Out Bytes, Clean ps n (after (x, { w with evs := evs })) := by
        intro x
        refine ⟨H, B, { w with evs := evs }, hat'.weaken False.elim, hn, ?_⟩
        cases x <;> first | exact ⟨rfl, Or.inl rfl⟩ | exact ⟨rfl, Or.inr ⟨rfl, hl⟩⟩
      by_cases hi : id.length = 8
      · have hlt : ofBE id < 2 ^ 64 := by
          have := ofBE_lt id
          rw [hi] at this; exact this
        have hrd : read dbg id = bytes dbg (ofBE id) := by simp [read, hi]
        dsimp only
        rw [hrd]
        by_cases hd : dbg = false ∨ 1 ≤ ofBE id ∧ ofBE id + 4096 < 2 ^ 64
        · rcases hoare_cases (hoare_bytes hat' (by omega) hlt hd) with
            ⟨x, w', e, ⟨g1, g2⟩, g3⟩ | ⟨w', e, hwhy, g1, g2⟩
          · rw [e]
            exact ⟨H, B, w', g1.weaken False.elim, hn, rfl, Or.inr ⟨rfl, g2.trans hl⟩⟩
          · refine ⟨H, B, w', g1.weaken False.elim, hn, ?_⟩
            rcases e with e | e <;> rw [e]
            · exact ⟨rfl, Or.inr ⟨rfl, g2.trans hl⟩⟩
            · exact ⟨rfl, Or.inl rfl⟩
        · have hov : ofBE id = 0 ∨ ¬ ofBE id + 4096 < 2 ^ 64 := by
            by_cases h0 : ofBE id = 0
            · exact Or.inl h0
            · refine Or.inr fun hx => hd (Or.inr ⟨by omega, hx⟩)
          have hdt : dbg = true := by
            cases dbg
            · exact absurd (Or.inl rfl) hd
            · rfl
          subst hdt
          have hsame := bytes_overflow (w := { w with evs := evs }) (id := ofBE id) (by dsimp only; omega) hov
          have := same (bytes true (ofBE id) { w with evs := evs }).1
          rw [← hsame] at this
          rw [hsame] at this
          rcases e : bytes true (ofBE id) { w with evs := evs } with ⟨x, w'⟩
          rw [e] at hsame
          dsimp only at hsame
          rw [hsame]
          exact same x
      · have hrd : read dbg id = panic := by simp [read, hi]
        dsimp only
        rw [hrd]
        exact same .panic
  | lastId =>
    have hW : (step dbg ps W .lastId).2 = W := by
      simp only [step]; cases W.store <;> rfl
    rw [hW]
    exact ⟨H, B, w, hat, hn, hf, hst⟩

theorem clean_write {W : World} {d evs id} (h8 : 8 ≤ ps) (h32 : Small ps (.write d evs)) (h : Inv ps W l)
    (hr : (step dbg ps W (.write d evs)).1 = .bytes (.ok id)) :
    Clean ps (ofBE id) (step dbg ps W (.write d evs)).2 ∧ id = toBE 8 (ofBE id) ∧ ofBE id ≠ 0 := by
  cases hst : W.store with
  | none => simp only [step, hst] at hr; cases hr
  | some s =>
    rcases h with ⟨rfl, hl⟩ | ⟨c, H, B, w, hat, hs, hf, hst'⟩
    · cases hst
    obtain rfl : s = w := by
      rcases hst' with hh | hh <;> rw [hst] at hh
      · cases hh
      · exact Option.some.inj hh
    simp only [step, hst] at hr ⊢
    rcases hoare_cases (hoare_write (dbg := dbg) (d := d) (at_call hat evs) h8 (h32 _ _ rfl)) with
      ⟨i, w', e, k, H', tl, rfl, g1, g2, g3, g4, g5, g6, g7⟩ | ⟨w', e, hwhy, H', tl, g⟩
    · rw [e] at hr ⊢
      cases hr
      have hid : ofBE (toBE 8 k) = k := by
        have := g1.max
        simp only [maxFile] at this
        exact ofBE_toBE_lt (by rw [g2]; omega)
      rw [hid]
      exact ⟨⟨H', B ++ tl, w', g1.weaken False.elim, g2.symm, rfl, Or.inr ⟨rfl, g6⟩⟩, rfl, by omega⟩
    · rcases e with e | e <;> rw [e] at hr <;> cases hr

theorem clean_run {n : Nat} (h8 : 8 ≤ ps) (ops : List Op) : ∀ {W : World}, 
    (∀ op ∈ ops, ∀ d evs, op = .write d evs → ps - 8 < d.length) → Clean ps n W → Clean ps n (run dbg ps W ops) := by
  induction ops with
  | nil => exact fun _ h => h
  | cons op ops ih =>
    intro W hop h
    exact ih (fun op' ho => hop op' (List.mem_cons_of_mem _ ho)) (clean_step h8 h op (hop op List.mem_cons_self))

theorem run_append (ops ops' : List Op) : ∀ {W : World}, run dbg ps W (ops ++ ops') = run dbg ps (run dbg ps W ops) ops' := by
  induction ops with
  | nil => intro W; rfl
  | cons op ops ih => intro W; exact ih

theorem open_store {W : World} {evs} (h : (step dbg ps W (.open evs)).1 = .opened (.ok ())) :
    (step dbg ps W (.open evs)).2.store ≠ none := by
  simp only [step, Seen.opened.injEq] at h ⊢
  rw [h]; simp

theorem write_store {W : World} {d evs id} (h : (step dbg ps W (.write d evs)).1 = .bytes (.ok id)) :
    (step dbg ps W (.write d evs)).2.store ≠ none := by
  simp only [step] at h ⊢
  cases hs : W.store with
  | none => rw [hs] at h; cases h
  | some s =>
    rw [hs] at h
    simp only [Seen.bytes.injEq] at h ⊢
    rw [after, h]; simp

theorem open_size {W : World} {evs} (h : Inv ps W l) (hf : W.file.length < 2 ^ 62)
    (hx : (step dbg ps W (.open evs)).1 = .opened (.ok ())) :
    (step dbg ps W (.open evs)).2.file.length < 2 ^ 62 + 4096 := by
  simp only [step, Seen.opened.injEq] at hx ⊢
  rw [hx]
  show (new dbg ⟨W.file, 0, ps, [], [], 0, evs⟩).2.data.length < _
  rcases h with ⟨rfl, hl⟩ | ⟨c, H, B, w, hat, hs, hf', hst⟩
  · have hh := hoare_new_empty (dbg := dbg) (w := ⟨[], 0, ps, [], [], 0, evs⟩) (q := NoFault evs) (ps := ps) rfl rfl rfl rfl
      (fun hh => hh)
    rcases hoare_cases hh with ⟨a, w', e, H', B', g1, g2, g3⟩ | ⟨w', e, hwhy, g⟩
    · show (new dbg ⟨[], 0, ps, [], [], 0, evs⟩).2.data.length < _
      rw [e]
      have := g1.len
      dsimp only
      omega
    · rcases e with e | e <;> rw [fresh, e] at hx <;> cases hx
  · have hat' : At (NoFault evs) ps c H B ⟨W.file, 0, ps, [], [], 0, evs⟩ :=
      ⟨by rw [hf', hat.data], hat.hlen, hat.ok, hat.max, rfl, Nat.zero_le _, by simp, fun hh => hh⟩
    rcases hoare_cases (hoare_new (dbg := dbg) hat') with ⟨a, w', e, H', B', g1, g2, g3, g4⟩ | ⟨w', e, hwhy, g⟩
    · rw [e]
      have h1 := g1.len
      have h2 := hat.len
      have h3 := hat.ok.2.2.2.2 (by rw [hf'] at hf; omega)
      dsimp only
      omega
    · rcases e with e | e <;> rw [e] at hx <;> cases hx

/-- Equal but for the events of past calls. -/
def Same (W W' : World) : Prop :=
  W.file = W'.file ∧ (W.store = none ∧ W'.store = none ∨ ∃ s s', W.store = some s ∧ W'.store = some s' ∧ ∀ evs, { s with evs := evs } = { s' with evs := evs })

theorem same_step {W W' : World} (h : Same W W') (op : Op) :
    (step dbg ps W op).1 = (step dbg ps W' op).1 ∧ Same (step dbg ps W op).2 (step dbg ps W' op).2 := by
  have refl : ∀ W : World, Same W W := by
    intro W
    refine ⟨rfl, ?_⟩
    cases h : W.store with
    | none => exact Or.inl ⟨rfl, rfl⟩
    | some s => exact Or.inr ⟨s, s, rfl, rfl, fun _ => rfl⟩
  have hW := h
  obtain ⟨hf, h⟩ := h
  cases op with
  | «open» evs => simp only [step, hf]; exact ⟨trivial, refl _⟩
  | write d evs =>
    simp only [step]
    rcases h with ⟨h1, h2⟩ | ⟨s, s', h1, h2, h3⟩
    · rw [h1, h2]; exact ⟨rfl, hW⟩
    · rw [h1, h2]; dsimp only; rw [h3]; exact ⟨rfl, refl _⟩
  | read id evs =>
    simp only [step]
    rcases h with ⟨h1, h2⟩ | ⟨s, s', h1, h2, h3⟩
    · rw [h1, h2]; exact ⟨rfl, hW⟩
    · rw [h1, h2]; dsimp only; rw [h3]; exact ⟨rfl, refl _⟩
  | lastId =>
    simp only [step]
    rcases h with ⟨h1, h2⟩ | ⟨s, s', h1, h2, h3⟩
    · rw [h1, h2]; exact ⟨rfl, hW⟩
    · rw [h1, h2]
      have : s.lastId = s'.lastId := by
        have := h3 []
        simp only [Inner.mk.injEq] at this
        exact this.2.2.2.2.2.1
      simp only [lastIdOf, this]
      exact ⟨trivial, hW⟩

theorem same_log (ops : List Op) : ∀ {W W' : World}, Same W W' → log dbg ps W ops = log dbg ps W' ops := by
  induction ops with
  | nil => intro W W' _; rfl
  | cons op ops ih =>
    intro W W' h
    obtain ⟨h1, h2⟩ := same_step (dbg := dbg) (ps := ps) h op
    simp only [log, h1, ih h2]

theorem too_large (h8 : 8 ≤ ps) {W : World} {s : Inner} (hs : W.store = some s) (hp : s.pageSize = ps)
    (hf : W.file = s.data) {d : Bytes} (hd : ps - 8 < d.length) (evs : List Ev) :
    (step dbg ps W (.write d evs)).1 = .bytes .err ∧ (step dbg ps W (.write d evs)).2.file = W.file ∧
    ∀ ops, log dbg ps (step dbg ps W (.write d evs)).2 ops = log dbg ps W ops := by
  simp only [step, hs]
  rw [write_large h8 (w := { s with evs := evs }) hp hd]
  refine ⟨rfl, hf.symm, fun ops => same_log ops ⟨hf.symm, Or.inr ⟨_, s, rfl, hs, fun _ => rfl⟩⟩⟩

/-- The length of a blob is written in 32 bits. -/
theorem long_blob {n : Nat} (hn : n = 2 ^ 32) (hps : ps = n + 16) {d : Bytes} (hdl : d.length = n) : ∃ id, log dbg ps fresh
    [.open [], .write d [], .open [], .read id []] =
    [(.open [], .opened (.ok ())), (.write d [], .bytes (.ok id)), (.open [], .opened (.ok ())), (.read id [], .bytes (.ok []))] := by
  have hm : ps % 8 = 0 := by omega
  have hnil : NoFault [] := by intro e he; cases he
  have hh := hoare_new_empty (dbg := dbg) (w := ⟨[], 0, ps, [], [], 0, []⟩) (q := NoFault []) (ps := ps) rfl rfl rfl rfl
    (fun hh => hh)
  rcases hoare_cases hh with ⟨_, w1, e1, H1, B1, a1, a2, a3⟩ | ⟨w1, e1, hwhy, g⟩
  rotate_left
  · rcases hwhy with hh | hh
    · exact absurd hnil hh
    · exact absurd hm hh
  have a1' := at_call (a1.weaken False.elim) []
  rcases hoare_cases (hoare_append_raw (dbg := dbg) (d := d) a1' (by omega)) with
    ⟨k, w2, e2, H2, tl, r, pre, b1, b2, b3, b4, b5, b6, b7, b8, b9⟩ | ⟨w2, e2, hwhy, g⟩
  rotate_left
  · rcases hwhy with hh | hh | hh
    · exact absurd hnil hh
    · omega
    · simp only [maxFile] at hh; omega
  have hz : toBE 4 d.length = toBE 4 0 := by rw [hdl, hn]; rfl
  have hrec : RecAt (B1 ++ tl) k [] := by
    refine ⟨by decide, by omega, pre ++ d, ?_⟩
    rw [b3, List.take_length, b4, hz]
    simp
  have hk : ofBE (toBE 8 k) = k := ofBE_toBE_lt (by omega)
  have hat2 : At (NoFault []) ps k H2 (B1 ++ tl) ⟨w2.data, 0, ps, [], [], 0, []⟩ :=
    ⟨b1.data, b1.hlen, b1.ok, b1.max, rfl, Nat.zero_le _, by simp, fun hh => hh⟩
  rcases hoare_cases (hoare_new (dbg := dbg) hat2) with ⟨_, w3, e3, H3, B3, c1, c2, c3, c4⟩ | ⟨w3, e3, hwhy, g⟩
  rotate_left
  · rcases hwhy with hh | hh | hh
    · exact absurd hnil hh
    · omega
    · exact absurd hm hh
  have c1' := at_call (c1.weaken False.elim) []
  have hB3 := c1.max
  simp only [maxFile] at hB3
  have hk4 := (rec_size hrec).1
  rcases hoare_cases (hoare_bytes (dbg := dbg) (id := k) c1' (by omega) (by omega) (Or.inr ⟨by omega, by omega⟩)) with
    ⟨x, w4, e4, _, hx⟩ | ⟨w4, e4, hwhy, _⟩
  rotate_left
  · exact absurd ⟨hnil, [], c2 _ _ (Nat.le_refl _) hrec, by simp; omega⟩ hwhy
  have hx := hx [] (c2 _ _ (Nat.le_refl _) hrec) (by simp; omega)
  subst hx
  refine ⟨toBE 8 k, ?_⟩
  have ew : write dbg d { w1 with evs := [] } = (.ok (toBE 8 k), w2) := by
    show M.bind (append dbg d) _ _ = _
    simp only [M.bind, e2]; rfl
  have er : read dbg (toBE 8 k) { w3 with evs := [] } = (.ok [], w4) := by
    rw [read, if_pos (toBE_length _ _), hk, e4]
  simp only [log, step, fresh, e1, ew, after, e3, er]

end Radix.Paged
