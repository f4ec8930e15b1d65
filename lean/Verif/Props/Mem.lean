import Verif.Proofs.Mem

/-
Property C37: the in-memory store.
-/

namespace Radix

/-- Number of `write` calls in a history. -/
def writeCount (ops : List MemOp) : Nat := (ops.filter fun | .write _ => true | _ => false).length

/-- The call returned the bytes `b`. -/
def Returned (e : MemOp × MemOut) (op : MemOp) (b : Bytes) : Prop := e.1 = op ∧ e.2 = .bytes (.ok b)

/-- What a log entry must look like after the entries `pre`:
* a write returns an 8 byte id that no write before it returned,
* a read of an id that a write before it returned gives the bytes of that write,
* a read of any other id (also of the wrong length) is an error,
* `count` is the number of writes before it. -/
def MemEntryOk (pre : List (MemOp × MemOut)) (e : MemOp × MemOut) : Prop :=
  match e.1 with
  | .write d => ∃ id, Returned e (.write d) id ∧ id.length = 8 ∧ ∀ e' ∈ pre, ∀ d', ¬ Returned e' (.write d') id
  | .read id =>
    (∀ e' ∈ pre, ∀ d, Returned e' (.write d) id → Returned e (.read id) d) ∧
    ((∀ e' ∈ pre, ∀ d, ¬ Returned e' (.write d) id) → e.2 = .bytes (.err ()))
  | .count => e.2 = .num (writeCount (pre.map (·.1)))

theorem memLog_ok {ops : List MemOp} : ∀ {st : MemState} {before : List (MemOp × MemOut)},
    (∀ i d, i.length = 8 → (st.find (ofBE i) = some d ↔ ∃ e ∈ before, Returned e (.write d) i)) →
    (∀ e ∈ before, ∀ d i, Returned e (.write d) i → i.length = 8) →
    st.length = writeCount (before.map (·.1)) →
    st.max + writeCount ops < 2 ^ 64 →
    ∀ pre e post, memLog st ops = pre ++ e :: post → MemEntryOk (before ++ pre) e := by
  induction ops with
  | nil => intro st before _ _ _ _ pre e post h; simp [memLog] at h
  | cons op ops ih =>
    intro st before hf h8 hl hm pre e post h
    have key : ∀ (r : MemOut) (st' : MemState), memStep st op = (r, st') →
        MemEntryOk before (op, r) ∧
        (∀ i d, i.length = 8 → (st'.find (ofBE i) = some d ↔ ∃ e ∈ before ++ [(op, r)], Returned e (.write d) i)) ∧
        (∀ e ∈ before ++ [(op, r)], ∀ d i, Returned e (.write d) i → i.length = 8) ∧
        st'.length = writeCount ((before ++ [(op, r)]).map (·.1)) ∧ st'.max + writeCount ops < 2 ^ 64 := by
      intro r st' hs
      cases op with
      | write d =>
        have hm' : st.max + 1 + writeCount ops < 2 ^ 64 := by
          simp [writeCount] at hm ⊢; omega
        simp only [memStep, memStore] at hs
        rw [if_pos (by omega)] at hs
        cases hs
        have hid : ofBE (toBE 8 (st.max + 1)) = st.max + 1 := ofBE_toBE_lt (by simp; omega)
        refine ⟨⟨toBE 8 (st.max + 1), ⟨rfl, rfl⟩, toBE_length _ _, ?_⟩, ?_, ?_, ?_, ?_⟩
        · intro e' he' d' hr
          have := (hf _ d' (toBE_length 8 (st.max + 1))).2 ⟨e', he', hr⟩
          rw [hid] at this
          have := find_le this
          omega
        · intro i d' hi
          rw [find_cons]
          by_cases hii : st.max + 1 = ofBE i
          · rw [if_pos hii]
            have e1 : i = toBE 8 (st.max + 1) := ofBE_inj (by rw [toBE_length, hi]) (by rw [hid, hii])
            subst e1
            constructor
            · intro h; cases h
              exact ⟨_, List.mem_append_right _ (List.mem_singleton_self _), rfl, rfl⟩
            · rintro ⟨e', he', hr⟩
              rcases List.mem_append.1 he' with he' | he'
              · have := (hf _ d' (toBE_length 8 (st.max + 1))).2 ⟨e', he', hr⟩
                rw [hid] at this
                have := find_le this
                omega
              · cases List.mem_singleton.1 he'; cases hr.1; rfl
          · rw [if_neg hii, hf i d' hi]
            constructor
            · rintro ⟨e', he', hr⟩; exact ⟨e', List.mem_append_left _ he', hr⟩
            · rintro ⟨e', he', hr⟩
              rcases List.mem_append.1 he' with he' | he'
              · exact ⟨e', he', hr⟩
              · cases List.mem_singleton.1 he'
                have := hr.2
                simp only [MemOut.bytes.injEq, Res.ok.injEq] at this
                rw [← this, hid] at hii; exact absurd rfl hii
        · intro e' he' d' i hr
          rcases List.mem_append.1 he' with he' | he'
          · exact h8 e' he' d' i hr
          · cases List.mem_singleton.1 he'
            have := hr.2
            simp only [MemOut.bytes.injEq, Res.ok.injEq] at this
            rw [← this, toBE_length]
        · simp only [List.map_append, writeCount, List.filter_append, List.length_append] at hl ⊢
          simp [hl]
        · rw [max_cons]
          have : Nat.max (st.max + 1) st.max = st.max + 1 := Nat.max_eq_left (by omega)
          show Nat.max (st.max + 1) st.max + _ < _
          omega
      | read id =>
        cases hs
        refine ⟨⟨?_, ?_⟩, ?_, ?_, ?_, ?_⟩
        · intro e' he' d hr
          have h8 := h8 e' he' d id hr
          have := (hf id d h8).2 ⟨e', he', hr⟩
          refine ⟨rfl, ?_⟩
          simp only [memStore]; rw [if_pos h8, this]
        · intro hno
          simp only [memStore]
          by_cases h8 : id.length = 8
          · rw [if_pos h8]
            cases hfi : MemState.find st (ofBE id) with
            | none => rfl
            | some d =>
              obtain ⟨e', he', hr⟩ := (hf id d h8).1 hfi
              exact absurd hr (hno e' he' d)
          · rw [if_neg h8]
        · intro i d hi
          rw [hf i d hi]
          constructor
          · rintro ⟨e', he', hr⟩; exact ⟨e', List.mem_append_left _ he', hr⟩
          · rintro ⟨e', he', hr⟩
            rcases List.mem_append.1 he' with he' | he'
            · exact ⟨e', he', hr⟩
            · cases List.mem_singleton.1 he'; cases hr.1
        · intro e' he' d' i hr
          rcases List.mem_append.1 he' with he' | he'
          · exact h8 e' he' d' i hr
          · cases List.mem_singleton.1 he'; cases hr.1
        · simp only [List.map_append, writeCount, List.filter_append, List.length_append] at hl ⊢
          simp [hl]
        · exact hm
      | count =>
        cases hs
        refine ⟨?_, ?_, ?_, ?_, ?_⟩
        · exact congrArg _ hl
        · intro i d hi
          rw [hf i d hi]
          constructor
          · rintro ⟨e', he', hr⟩; exact ⟨e', List.mem_append_left _ he', hr⟩
          · rintro ⟨e', he', hr⟩
            rcases List.mem_append.1 he' with he' | he'
            · exact ⟨e', he', hr⟩
            · cases List.mem_singleton.1 he'; cases hr.1
        · intro e' he' d' i hr
          rcases List.mem_append.1 he' with he' | he'
          · exact h8 e' he' d' i hr
          · cases List.mem_singleton.1 he'; cases hr.1
        · simp only [List.map_append, writeCount, List.filter_append, List.length_append] at hl ⊢
          simp [hl]
        · exact hm
    rcases hs : memStep st op with ⟨r, st'⟩
    obtain ⟨k1, k2, k3, k4, k5⟩ := key r st' hs
    simp only [memLog, hs] at h
    cases pre with
    | nil => cases h; simpa using k1
    | cons e' pre =>
      simp only [List.cons_append, List.cons.injEq] at h
      obtain ⟨rfl, h⟩ := h
      have := ih k2 k3 k4 k5 pre e post h
      simpa using this

/-- **C37**. In every history of reads, writes and counts by any clients of a fresh `MemStore`, with fewer than `2 ^ 64`
writes, every outcome is as `MemEntryOk` says. -/
theorem C37_mem_store (ops : List MemOp) (h : writeCount ops < 2 ^ 64) (pre : List (MemOp × MemOut))
    (e : MemOp × MemOut) (post : List (MemOp × MemOut)) (hl : memLog [] ops = pre ++ e :: post) : MemEntryOk pre e := by
  have := memLog_ok (ops := ops) (st := []) (before := []) (by intro i d _; simp [MemState.find])
    (by simp) rfl (by simp [MemState.max]; simpa using h) pre e post hl
  simpa using this

/-- Without overflow checks the id wraps around after `2 ^ 64 - 1` writes, and then blobs are overwritten. -/
theorem C37_overflow : ∃ (st : MemState) (d d' : Bytes), d ≠ d' ∧
    let w := memWriteWrap st d
    let w' := memWriteWrap w.2 d'
    w.1 = w'.1 ∧ memStore.read w.2 w.1 = .ok d ∧ memStore.read w'.2 w.1 = .ok d' :=
  ⟨[(2 ^ 64 - 1, [])], [1], [2], by decide +kernel⟩

/-- A history of two writes, reads of both ids and of an unknown one. -/
example : memLog [] [.write [1, 2], .write [1, 2], .read [0,0,0,0,0,0,0,1], .read [0,0,0,0,0,0,0,2], .read [7], .count] =
    [(.write [1, 2], .bytes (.ok [0,0,0,0,0,0,0,1])), (.write [1, 2], .bytes (.ok [0,0,0,0,0,0,0,2])),
     (.read [0,0,0,0,0,0,0,1], .bytes (.ok [1, 2])), (.read [0,0,0,0,0,0,0,2], .bytes (.ok [1, 2])),
     (.read [7], .bytes (.err ())), (.count, .num 2)] := rfl

end Radix
