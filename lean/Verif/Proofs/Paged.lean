import Verif.Paged.Model
import Verif.Proofs.Mem

/-
Proof-internal: what each function of the paged file store does to the file, with faults and crashes.
-/

set_option linter.unusedVariables false

namespace Radix.Paged

theorem headerSize_eq : headerSize = 4096 := rfl

attribute [local irreducible] headerSize

/-! ### Rules for calls -/

/-- `x` does not panic; if it succeeds `ok` holds; if it fails or is interrupted then `bad` holds, and there is a reason. -/
def Hoare {α : Type} (x : M α) (w : Inner) (why : Prop) (ok : α → Inner → Prop) (bad : Inner → Prop) : Prop :=
  match x w with
  | (.ok a, w) => ok a w
  | (.err, w) => why ∧ bad w
  | (.crash, w) => why ∧ bad w
  | (.panic, _) => False

variable {α β : Type} {w : Inner} {why q : Prop} {bad : Inner → Prop} {ps c : Nat} {H B : Bytes}

theorem hoare_bind {x : M α} {f : α → M β} {ok : β → Inner → Prop}
    (h : Hoare x w why (fun a w => Hoare (f a) w why ok bad) bad) : Hoare (x >>= f) w why ok bad := by
  unfold Hoare at h
  show Hoare (M.bind x f) w why ok bad
  unfold Hoare M.bind
  rcases e : x w with ⟨_ | _ | _ | _, w1⟩ <;> rw [e] at h <;> exact h

theorem hoare_weaken {x : M α} {ok ok' : α → Inner → Prop} {bad' : Inner → Prop} {why' : Prop}
    (h : Hoare x w why ok bad) (h0 : why → why') (h1 : ∀ a w, ok a w → ok' a w) (h2 : ∀ w, bad w → bad' w) :
    Hoare x w why' ok' bad' := by
  unfold Hoare at h ⊢
  rcases e : x w with ⟨_ | _ | _ | _, w1⟩ <;> rw [e] at h
  · exact h1 _ _ h
  · exact ⟨h0 h.1, h2 _ h.2⟩
  · exact h
  · exact ⟨h0 h.1, h2 _ h.2⟩

theorem hoare_pure {a : α} {ok : α → Inner → Prop} (h : ok a w) : Hoare (pure a) w why ok bad := h
theorem hoare_self {ok : Inner → Inner → Prop} (h : ok w w) : Hoare self w why ok bad := h
theorem hoare_update {f : Inner → Inner} {ok : Unit → Inner → Prop} (h : ok () (f w)) :
    Hoare (update f) w why ok bad := h
theorem hoare_fail {ok : α → Inner → Prop} (h : why) (h' : bad w) : Hoare fail w why ok bad := ⟨h, h'⟩
theorem hoare_die {ok : α → Inner → Prop} (h : why) (h' : bad w) : Hoare die w why ok bad := ⟨h, h'⟩

theorem hoare_ensure {b : Bool} {ok : Unit → Inner → Prop} (h : b = true → ok () w) (h' : b = false → why ∧ bad w) :
    Hoare (ensure b) w why ok bad := by
  cases b
  · exact h' rfl
  · exact h rfl

theorem hoare_seekEnd {ok : Nat → Inner → Prop} (h : ok w.data.length { w with pos := w.data.length }) :
    Hoare seekEnd w why ok bad := h

theorem hoare_seekStart {n : Nat} {ok : Unit → Inner → Prop} (h : n ≤ maxFile → ok () { w with pos := n })
    (h' : ¬ n ≤ maxFile → why ∧ bad w) : Hoare (seekStart n) w why ok bad := by
  refine hoare_bind (hoare_ensure (fun hb => ?_) (fun hb => h' (by simpa using hb)))
  exact hoare_update (h (by simpa using hb))

theorem hoare_add64 {dbg : Bool} {a b : Nat} {ok : Nat → Inner → Prop}
    (h : a + b < 2 ^ 64 → ok (a + b) w) (h' : ¬ a + b < 2 ^ 64 → dbg = false ∧ ok ((a + b) % 2 ^ 64) w) :
    Hoare (add64 dbg a b) w why ok bad := by
  unfold add64
  split
  · rename_i hl; exact h hl
  · rename_i hl
    obtain ⟨rfl, h2⟩ := h' hl
    exact h2

theorem hoare_sub64 {dbg : Bool} {a b : Nat} {ok : Nat → Inner → Prop}
    (h : b ≤ a → ok (a - b) w) (h' : ¬ b ≤ a → dbg = false ∧ ok (2 ^ 64 - (b - a)) w) :
    Hoare (sub64 dbg a b) w why ok bad := by
  unfold sub64
  split
  · rename_i hl; exact h hl
  · rename_i hl
    obtain ⟨rfl, h2⟩ := h' hl
    exact h2

/-- Nothing happens to the coming file operations. -/
def Quiet (w : Inner) : Prop := ∀ e ∈ w.evs, e = Ev.ok

theorem hoare_nextEv {ok : Ev → Inner → Prop} (hq : q → Quiet w)
    (h : ∀ e evs, (q → e = .ok) → (q → Quiet { w with evs := evs }) → ok e { w with evs := evs }) :
    Hoare nextEv w why ok bad := by
  unfold Hoare nextEv
  split <;> rename_i heq
  · cases h0 : w.evs with
    | nil =>
      rw [h0] at heq
      simp only [Prod.mk.injEq, Out.ok.injEq] at heq
      obtain ⟨rfl, rfl⟩ := heq
      have := h .ok [] (fun _ => rfl) (fun hh => by simp [Quiet])
      rwa [← h0] at this
    | cons e evs =>
      rw [h0] at heq
      simp only [Prod.mk.injEq, Out.ok.injEq] at heq
      obtain ⟨rfl, rfl⟩ := heq
      refine h e evs (fun hh => hq hh e (by rw [h0]; exact List.mem_cons_self)) (fun hh e' he' => ?_)
      exact hq hh e' (by rw [h0]; exact List.mem_cons_of_mem _ he')
  all_goals (cases h0 : w.evs <;> rw [h0] at heq <;> simp at heq)

/-! ### The header -/

/-- What the size `h` in the header can be when `c` is the largest completed id and `e` the number of bytes after the
header, also when writes of the header were interrupted half way. -/
def HdrOK (c h e : Nat) : Prop :=
  c ≤ e ∧ c ≤ h ∧ (∀ k, e / 256 ^ k = c / 256 ^ k → h / 256 ^ k = c / 256 ^ k) ∧ h < 2 ^ 63 ∧ (e < 2 ^ 62 → h < 2 ^ 62)

theorem hdr_self {c e : Nat} (h : c ≤ e) (he : e < 2 ^ 63) : HdrOK c e e := ⟨h, h, fun _ h => h, he, id⟩

theorem hdr_grow {c h e n : Nat} (hh : HdrOK c h e) : HdrOK c h (e + n) := by
  obtain ⟨h1, h2, h3, h4, h5⟩ := hh
  refine ⟨by omega, h2, fun k hk => h3 k ?_, h4, fun hl => h5 (by omega)⟩
  have a := Nat.div_le_div_right (c := 256 ^ k) h1
  have b := Nat.div_le_div_right (c := 256 ^ k) (Nat.le_add_right e n)
  omega

theorem hdr_torn {c h e k : Nat} (hh : HdrOK c h e) (he : e < 2 ^ 63) (hk : k ≤ 8) :
    HdrOK c (e / 256 ^ k * 256 ^ k + h % 256 ^ k) e := by
  obtain ⟨h1, h2, h3, h4, h5⟩ := hh
  have hK : 0 < 256 ^ k := Nat.pow_pos (by decide)
  have hm : h % 256 ^ k < 256 ^ k := Nat.mod_lt _ hK
  have heq : e / 256 ^ k = c / 256 ^ k → e / 256 ^ k * 256 ^ k + h % 256 ^ k = h := by
    intro hk
    rw [hk, ← h3 k hk, Nat.mul_comm]; exact Nat.div_add_mod _ _
  have hdiv : (e / 256 ^ k * 256 ^ k + h % 256 ^ k) / 256 ^ k = e / 256 ^ k := by
    rw [Nat.mul_comm, Nat.mul_add_div hK, Nat.div_eq_of_lt hm, Nat.add_zero]
  refine ⟨h1, ?_, ?_, ?_, ?_⟩
  · by_cases hc : e / 256 ^ k = c / 256 ^ k
    · rw [heq hc]; exact h2
    · have : c / 256 ^ k < e / 256 ^ k := Nat.lt_of_le_of_ne (Nat.div_le_div_right h1) (fun h => hc h.symm)
      have hx := (Nat.div_lt_iff_lt_mul hK).1 this
      omega
  · intro j hj
    by_cases hjk : k ≤ j
    · obtain ⟨i, rfl⟩ := Nat.exists_eq_add_of_le hjk
      rw [← hj, Nat.pow_add, ← Nat.div_div_eq_div_mul, hdiv, ← Nat.div_div_eq_div_mul]
    · have hk' : e / 256 ^ k = c / 256 ^ k := by
        obtain ⟨i, rfl⟩ := Nat.exists_eq_add_of_le (Nat.le_of_lt (Nat.lt_of_not_le hjk))
        rw [Nat.pow_add, ← Nat.div_div_eq_div_mul, hj, Nat.div_div_eq_div_mul]
      rw [heq hk']; exact h3 j hj
  all_goals
    (have : k = 0 ∨ k = 1 ∨ k = 2 ∨ k = 3 ∨ k = 4 ∨ k = 5 ∨ k = 6 ∨ k = 7 ∨ k = 8 := by omega
     rcases this with rfl | rfl | rfl | rfl | rfl | rfl | rfl | rfl | rfl <;> simp at * <;> omega)

theorem toBE_take (n x k : Nat) (hk : k ≤ n) : (toBE n x).take k = toBE k (x / 256 ^ (n - k)) := by
  induction n generalizing x with
  | zero => have : k = 0 := by omega
            subst this; rfl
  | succ n ih =>
    by_cases h : k = n + 1
    · subst h
      rw [List.take_of_length_le (by simp [toBE_length])]; simp
    · rw [toBE, List.take_append_of_le_length (by rw [toBE_length]; omega), ih _ (by omega)]
      rw [Nat.div_div_eq_div_mul, ← Nat.pow_succ', show (n - k).succ = n + 1 - k by omega]

theorem toBE_drop (n x k : Nat) (hk : k ≤ n) : (toBE n x).drop k = toBE (n - k) x := by
  induction n generalizing x with
  | zero => have : k = 0 := by omega
            subst this; rfl
  | succ n ih =>
    by_cases h : k = n + 1
    · subst h
      rw [List.drop_of_length_le (by simp [toBE_length])]; simp [toBE]
    · rw [toBE, List.drop_append_of_le_length (by rw [toBE_length]; omega), ih _ (by omega),
        show n + 1 - k = (n - k) + 1 by omega, toBE]

theorem ofBE_append (as bs : Bytes) : ofBE (as ++ bs) = ofBE as * 256 ^ bs.length + ofBE bs := by
  induction bs using snoc_induction with
  | h0 => simp [ofBE]
  | h1 bs b ih =>
    rw [← List.append_assoc, ofBE_snoc, ofBE_snoc, ih, List.length_append, List.length_singleton, Nat.pow_succ,
      ← Nat.mul_assoc]
    omega

/-- The size that the header says. -/
def hdr (H : Bytes) : Nat := ofBE ((H.drop 16).take 8)

/-- Overwriting the first bytes of the size. -/
theorem hdr_write {H : Bytes} {s n : Nat} (hl : H.length = 4096) (hn : n ≤ 8) (hs : s < 2 ^ 64) :
    hdr (H.take 16 ++ (toBE 8 s).take n ++ H.drop (16 + n)) = s / 256 ^ (8 - n) * 256 ^ (8 - n) + hdr H % 256 ^ (8 - n) := by
  have e1 : ((H.take 16 ++ (toBE 8 s).take n ++ H.drop (16 + n)).drop 16).take 8 =
      (toBE 8 s).take n ++ ((H.drop 16).take 8).drop n := by
    rw [List.append_assoc, List.drop_append_of_le_length (by simp; omega),
      List.drop_of_length_le (by simp; omega), List.nil_append, List.take_append, List.take_of_length_le
        (by simp [toBE_length]; omega), List.drop_take, List.drop_drop, List.length_take, toBE_length, Nat.min_eq_left hn,
        Nat.add_comm]
  unfold hdr
  rw [e1, ofBE_append]
  have hb : ((H.drop 16).take 8).length = 8 := by simp; omega
  rw [List.length_drop, hb, toBE_take _ _ _ hn]
  congr 1
  · rw [ofBE_toBE_lt]
    rw [Nat.div_lt_iff_lt_mul (Nat.pow_pos (by decide)), ← Nat.pow_add, show n + (8 - n) = 8 by omega]
    exact hs
  · have := toBE_ofBE ((H.drop 16).take 8)
    rw [hb] at this
    conv => lhs; rw [← this, toBE_drop _ _ _ hn, ofBE_toBE]

/-! ### Records -/

/-- The bytes before `id` are the record of `d`: the data and its length. -/
def RecAt (B : Bytes) (id : Nat) (d : Bytes) : Prop :=
  d.length < 2 ^ 32 ∧ id ≤ B.length ∧ ∃ pre, B.take id = pre ++ d ++ toBE 4 d.length

theorem rec_grow {id : Nat} {d : Bytes} (tl : Bytes) (h : RecAt B id d) : RecAt (B ++ tl) id d := by
  obtain ⟨h1, h2, pre, h3⟩ := h
  refine ⟨h1, by simp; omega, pre, ?_⟩
  rw [List.take_append_of_le_length h2, h3]

theorem rec_take {id n : Nat} {d : Bytes} (h : RecAt B id d) (hn : id ≤ n) : RecAt (B.take n) id d := by
  obtain ⟨h1, h2, pre, h3⟩ := h
  refine ⟨h1, by simp; omega, pre, ?_⟩
  rw [List.take_take, Nat.min_eq_left hn, h3]

theorem rec_len {id : Nat} {d pre : Bytes} (h2 : id ≤ B.length) (h3 : B.take id = pre ++ d ++ toBE 4 d.length) :
    id = pre.length + d.length + 4 := by
  have := congrArg List.length h3
  simp [toBE_length] at this
  omega

theorem rec_size {id : Nat} {d : Bytes} (h : RecAt B id d) :
    d.length + 4 ≤ id ∧ ofBE ((B.drop (id - 4)).take 4) = d.length ∧ (B.drop (id - 4 - d.length)).take d.length = d := by
  obtain ⟨h1, h2, pre, h3⟩ := h
  have hl := rec_len h2 h3
  refine ⟨by omega, ?_, ?_⟩
  · have : (B.drop (id - 4)).take 4 = toBE 4 d.length := by
      have e := List.drop_take (i := id - 4) (j := id) (l := B)
      rw [show id - (id - 4) = 4 by omega] at e
      rw [← e, h3, List.drop_append_of_le_length (by simp; omega), List.drop_of_length_le (by simp; omega)]
      rfl
    rw [this, ofBE_toBE_lt (by simpa using h1)]
  · have e := List.drop_take (i := id - 4 - d.length) (j := id) (l := B)
    have e2 : (B.drop (id - 4 - d.length)).take d.length =
        ((B.drop (id - 4 - d.length)).take (id - (id - 4 - d.length))).take d.length := by
      rw [List.take_take]; congr 1; omega
    rw [e2, ← e, h3, List.append_assoc, List.drop_append_of_le_length (by omega),
      List.drop_of_length_le (by omega), List.nil_append, List.take_left']
    rfl

theorem rec_unique {id : Nat} {d d' : Bytes} (h : RecAt B id d) (h' : RecAt B id d') : d = d' := by
  obtain ⟨_, a1, a2⟩ := rec_size h
  obtain ⟨_, b1, b2⟩ := rec_size h'
  rw [← a2, ← b2, ← a1, b1]

theorem rec_of_read {id : Nat} {size : Nat} (hi : id ≤ B.length) (hs : ofBE ((B.drop (id - 4)).take 4) = size)
    (h4 : 4 + size ≤ id) : RecAt B id ((B.drop (id - 4 - size)).take size) := by
  have hl : ((B.drop (id - 4 - size)).take size).length = size := by simp; omega
  have h44 : ((B.drop (id - 4)).take 4).length = 4 := by simp; omega
  refine ⟨?_, hi, B.take (id - 4 - size), ?_⟩
  · rw [hl, ← hs]
    have := ofBE_lt ((B.drop (id - 4)).take 4)
    rw [h44] at this
    exact this
  · rw [hl, ← hs]
    have := toBE_ofBE ((B.drop (id - 4)).take 4)
    rw [h44] at this
    rw [this, hs]
    conv => lhs; rw [show id = (id - 4 - size) + size + 4 by omega, List.take_add, List.take_add]
    congr 2
    rw [show id - 4 - size + size = id - 4 by omega]

/-! ### States of the store -/

/-- The file has the header `H` and then the bytes `B`; all ids up to `c` are safe; if `q` then no operation fails. -/
structure At (q : Prop) (ps c : Nat) (H B : Bytes) (w : Inner) : Prop where
  data : w.data = H ++ B
  hlen : H.length = 4096
  ok : HdrOK c (hdr H) B.length
  max : B.length + 4096 ≤ maxFile
  psz : w.pageSize = ps
  last : w.lastId ≤ B.length
  recent : ∀ e ∈ w.recent, e.1 ≤ maxFile → RecAt B e.1 e.2
  quiet : q → Quiet w

theorem At.len (h : At q ps c H B w) : w.data.length = 4096 + B.length := by
  rw [h.data, List.length_append, h.hlen]

theorem At.evs {evs : List Ev} (h : At q ps c H B w) (hq : q → Quiet { w with evs := evs }) :
    At q ps c H B { w with evs := evs } := ⟨h.data, h.hlen, h.ok, h.max, h.psz, h.last, h.recent, hq⟩

theorem At.setPos (h : At q ps c H B w) (n : Nat) : At q ps c H B { w with pos := n } :=
  ⟨h.data, h.hlen, h.ok, h.max, h.psz, h.last, h.recent, h.quiet⟩

theorem At.setPages (h : At q ps c H B w) (n : List Nat) : At q ps c H B { w with pages := n } :=
  ⟨h.data, h.hlen, h.ok, h.max, h.psz, h.last, h.recent, h.quiet⟩

theorem At.setRecent (h : At q ps c H B w) {r : List (Nat × Bytes)} (hr : ∀ e ∈ r, e.1 ≤ maxFile → RecAt B e.1 e.2) :
    At q ps c H B { w with recent := r } := ⟨h.data, h.hlen, h.ok, h.max, h.psz, h.last, hr, h.quiet⟩

theorem At.grow (h : At q ps c H B w) (bs : Bytes) (p : Nat) (hm : B.length + bs.length + 4096 ≤ maxFile) :
    At q ps c H (B ++ bs) { w with data := H ++ (B ++ bs), pos := p } :=
  ⟨rfl, h.hlen, by rw [List.length_append]; exact hdr_grow h.ok, by simp; omega, h.psz,
    by have := h.last; simp; omega, fun e he hm => rec_grow _ (h.recent e he hm), h.quiet⟩

/-- The cursor is at the end of the file. -/
def AtEnd (w : Inner) : Prop := w.pos = w.data.length

theorem writeAt_end (data bs : Bytes) : writeAt data data.length bs = data ++ bs := by
  unfold writeAt
  cases bs <;> simp

/-- Writing at the end of the file. -/
theorem hoare_writeAll {bs : Bytes} {ok : Unit → Inner → Prop} (h : At q ps c H B w) (he : AtEnd w)
    (hw : ¬ q ∨ maxFile < B.length + 4096 + bs.length → why)
    (hok : ∀ w', At q ps c H (B ++ bs) w' → AtEnd w' → w'.lastId = w.lastId → ok () w')
    (hbad : ∀ n w', At q ps c H (B ++ bs.take n) w' → bad w') : Hoare (writeAll bs) w why ok bad := by
  have hpos : w.pos = 4096 + B.length := by rw [he, h.len]
  have hmax := h.max
  have key : ∀ (evs : List Ev) (bs' : Bytes), (q → Quiet { w with evs := evs }) →
      B.length + bs'.length + 4096 ≤ maxFile →
      At q ps c H (B ++ bs') { w with evs := evs, data := writeAt w.data w.pos bs', pos := w.pos + bs'.length } ∧
      AtEnd { w with evs := evs, data := writeAt w.data w.pos bs', pos := w.pos + bs'.length } := by
    intro evs bs' hq hb
    have e : writeAt w.data w.pos bs' = H ++ (B ++ bs') := by rw [he, writeAt_end, h.data, List.append_assoc]
    constructor
    · have := (h.evs hq).grow bs' (w.pos + bs'.length) hb
      rw [← e] at this
      exact this
    · unfold AtEnd
      dsimp only
      rw [e, hpos]
      simp only [List.length_append, h.hlen]; omega
  refine hoare_bind (hoare_self (hoare_bind (hoare_nextEv h.quiet ?_)))
  intro e evs hqe hq
  cases e with
  | ok =>
    dsimp only
    split
    · rename_i hl
      have := key evs bs hq (by omega)
      exact hoare_update (hok _ this.1 this.2 rfl)
    · refine hoare_fail (hw (Or.inr (by omega))) ?_
      have := (key evs [] hq (by simpa using hmax)).1
      simp only [writeAt, List.isEmpty_nil, if_true, List.length_nil, Nat.add_zero] at this
      have h0 := hbad 0 { w with evs := evs } (by simpa using this)
      exact h0
  | fail n =>
    refine hoare_bind (hoare_update (hoare_fail (hw (Or.inl fun hh => by cases hqe hh)) ?_))
    exact hbad _ _ (key evs _ hq (by rw [List.length_take]; omega)).1
  | crash n =>
    refine hoare_bind (hoare_update (hoare_die (hw (Or.inl fun hh => by cases hqe hh)) ?_))
    exact hbad _ _ (key evs _ hq (by rw [List.length_take]; omega)).1

theorem writeAt_hdr (hl : H.length = 4096) (s : Nat) (n : Nat) (hn : n ≤ 8) :
    writeAt (H ++ B) 16 ((toBE 8 s).take n) = (H.take 16 ++ (toBE 8 s).take n ++ H.drop (16 + n)) ++ B := by
  have hln : ((toBE 8 s).take n).length = n := by rw [List.length_take, toBE_length]; omega
  unfold writeAt
  rw [hln]
  split
  · rename_i he
    have : n = 0 := by
      rw [List.isEmpty_iff] at he
      rw [he] at hln; simpa using hln.symm
    subst this
    simp
  · rw [List.take_append_of_le_length (by omega), List.drop_append_of_le_length (by omega),
      show 16 - (H ++ B).length = 0 by simp; omega]
    simp

theorem At.header (h : At q ps c H B w) (n p : Nat) (hn : n ≤ 8) (evs : List Ev) (hq : q → Quiet { w with evs := evs }) :
    ∃ H', At q ps c H' B { w with evs := evs, data := writeAt w.data 16 ((toBE 8 B.length).take n), pos := p } ∧
      (n = 8 → hdr H' = B.length) := by
  have hm := h.max
  simp only [maxFile] at hm
  refine ⟨H.take 16 ++ (toBE 8 B.length).take n ++ H.drop (16 + n),
    ⟨by rw [h.data, writeAt_hdr h.hlen _ _ hn], ?_, ?_, h.max, h.psz, h.last, h.recent, hq⟩, ?_⟩
  · have := h.hlen
    simp [toBE_length]; omega
  · rw [hdr_write h.hlen hn (by omega)]
    exact hdr_torn h.ok (by omega) (by omega)
  · rintro rfl
    rw [hdr_write h.hlen (by omega) (by omega)]
    simp [Nat.mod_one]

theorem hoare_writeSize {ok : Unit → Inner → Prop} (h : At q ps c H B w) (hw : ¬ q → why)
    (hok : ∀ H' w', At q ps c H' B w' → AtEnd w' → hdr H' = B.length → w'.lastId = w.lastId → ok () w')
    (hbad : ∀ H' w', At q ps c H' B w' → bad w') : Hoare (writeSize B.length) w why ok bad := by
  refine hoare_bind (hoare_seekStart (fun _ => ?_) (fun hh => absurd (by decide) hh))
  refine hoare_bind (hoare_bind (hoare_self (hoare_bind (hoare_nextEv h.quiet ?_))))
  intro e evs hqe hq
  cases e with
  | ok =>
    dsimp only
    rw [if_pos (by rw [toBE_length]; decide)]
    refine hoare_update (hoare_bind (hoare_seekEnd (hoare_pure ?_)))
    obtain ⟨H', h1, h2⟩ := h.header 8 (16 + 8) (by omega) evs hq
    rw [List.take_of_length_le (by rw [toBE_length]; omega)] at h1
    exact hok H' _ (h1.setPos _) rfl (h2 rfl) rfl
  | fail n =>
    refine hoare_bind (hoare_update (hoare_fail (hw (fun hh => by cases hqe hh)) ?_))
    obtain ⟨H', h1, _⟩ := h.header (min (min n (maxFile - 16)) 8) (16 + ((toBE 8 B.length).take (min n (maxFile - 16))).length)
      (Nat.min_le_right _ _) evs hq
    have e : (toBE 8 B.length).take (min (min n (maxFile - 16)) 8) = (toBE 8 B.length).take (min n (maxFile - 16)) := by
      rw [← List.take_take, List.take_of_length_le (i := 8) (by rw [toBE_length]; omega)]
    rw [e] at h1
    exact hbad H' _ h1
  | crash n =>
    refine hoare_bind (hoare_update (hoare_die (hw (fun hh => by cases hqe hh)) ?_))
    obtain ⟨H', h1, _⟩ := h.header (min (min n (maxFile - 16)) 8) (16 + ((toBE 8 B.length).take (min n (maxFile - 16))).length)
      (Nat.min_le_right _ _) evs hq
    have e : (toBE 8 B.length).take (min (min n (maxFile - 16)) 8) = (toBE 8 B.length).take (min n (maxFile - 16)) := by
      rw [← List.take_take, List.take_of_length_le (i := 8) (by rw [toBE_length]; omega)]
    rw [e] at h1
    exact hbad H' _ h1

theorem hoare_commit {ok : Nat → Inner → Prop} (h : At q ps c H B w) (hw : ¬ q → why)
    (hok : ∀ H' w', At q ps c H' B w' → AtEnd w' → hdr H' = B.length → w'.lastId = w.lastId → ok B.length w')
    (hbad : ∀ H' w', At q ps c H' B w' → bad w') : Hoare commit w why ok bad := by
  refine hoare_bind (hoare_seekEnd ?_)
  dsimp only
  have e : w.data.length - headerSize = B.length := by rw [h.len]; simp [headerSize]
  rw [e]
  refine hoare_bind (hoare_writeSize (h.setPos _) hw (fun H' w' h1 h2 h3 h4 => ?_) hbad)
  exact hoare_pure (hok H' w' h1 h2 h3 h4)

theorem hoare_padLoop {ok : Unit → Inner → Prop} {offset : Nat} (hbad : ∀ tl w', At q ps c H (B ++ tl) w' → bad w')
    (hw : ¬ q ∨ maxFile < offset → why) : ∀ (n : Nat) (w : Inner) (tl : Bytes),
    At q ps c H (B ++ tl) w → AtEnd w → w.data.length ≤ offset → offset - w.pos ≤ n →
    (∀ tl w', At q ps c H (B ++ tl) w' → AtEnd w' → w'.data.length = offset → w'.lastId = w.lastId → ok () w') →
    Hoare (padLoop n offset) w why ok bad := by
  intro n
  induction n with
  | zero =>
    intro w tl h he hle hn hok
    exact hoare_pure (hok tl w h he (by have : w.pos = w.data.length := he; omega) rfl)
  | succ n ih =>
    intro w tl h he hle hn hok
    have hpos : w.pos = w.data.length := he
    have hlen := h.len
    refine hoare_bind (hoare_self ?_)
    dsimp only
    split
    · rename_i hlt
      refine hoare_bind (hoare_writeAll h he ?_ ?_ ?_)
      · rw [List.length_replicate]
        rintro (h1 | h1)
        · exact hw (Or.inl h1)
        · exact hw (Or.inr (by omega))
      · intro w' h1 h2 h3
        have hlen' := h1.len
        rw [List.length_append, List.length_replicate] at hlen'
        rw [List.append_assoc] at h1
        have hpos' : w'.pos = w'.data.length := h2
        refine ih w' _ h1 h2 (by omega) (by omega) ?_
        intro tl w'' g1 g2 g3 g4
        exact hok tl w'' g1 g2 g3 (g4.trans h3)
      · intro k w' h1
        rw [List.append_assoc] at h1
        exact hbad _ _ h1
    · exact hoare_pure (hok tl w h he (by omega) rfl)

theorem hoare_loadPage {ok : Unit → Inner → Prop} {p : Nat} (h : At q ps c H B w) (hw : ¬ q → why)
    (hok : ∀ w', At q ps c H B w' → w'.data = w.data → w'.pos = w.pos → w'.lastId = w.lastId → ok () w')
    (hbad : ∀ w', At q ps c H B w' → w'.lastId = w.lastId → bad w') : Hoare (loadPage p) w why ok bad := by
  refine hoare_bind (hoare_nextEv h.quiet ?_)
  intro e evs hqe hq
  cases e with
  | ok => exact hoare_update (hok _ ((h.evs hq).setPages _) rfl rfl rfl)
  | fail n => exact hoare_fail (hw (fun hh => by cases hqe hh)) (hbad _ (h.evs hq) rfl)
  | crash n => exact hoare_die (hw (fun hh => by cases hqe hh)) (hbad _ (h.evs hq) rfl)

theorem hoare_closePage {ok : Unit → Inner → Prop} {p : Nat} (h : At q ps c H B w) (he : AtEnd w)
    (hp : B.length ≤ p * ps + ps) (hw : ¬ q ∨ maxFile < p * ps + ps + 4096 → why)
    (hok : ∀ H' tl w', At q ps c H' (B ++ tl) w' → AtEnd w' → (B ++ tl).length = p * ps + ps → w'.lastId = w.lastId →
      ok () w')
    (hbad : ∀ H' tl w', At q ps c H' (B ++ tl) w' → bad w') : Hoare (closePage p) w why ok bad := by
  refine hoare_bind (hoare_self ?_)
  rw [h.psz]
  have hlen := h.len
  refine hoare_bind (hoare_bind (hoare_self ?_))
  refine hoare_padLoop (B := B) (fun tl w' h1 => hbad _ tl w' h1) ?_ _ w [] (by simpa using h) he ?_ (Nat.le_refl _) ?_
  · simp only [offsetOfPage, headerSize]
    rintro (h1 | h1)
    · exact hw (Or.inl h1)
    · exact hw (Or.inr (by omega))
  · simp only [offsetOfPage, headerSize]; omega
  intro tl w' h1 h2 h3 h4
  have hl' := h1.len
  simp only [offsetOfPage, headerSize] at h3
  refine hoare_bind (hoare_commit h1 (fun hh => hw (Or.inl hh)) ?_ (fun H' w' g => hbad H' tl w' g))
  intro H' w'' g1 g2 g3 g4
  refine hoare_bind (hoare_loadPage g1 (fun hh => hw (Or.inl hh)) ?_ (fun w' g _ => hbad H' tl w' g))
  intro w3 k1 k2 k3 k4
  refine hoare_update (hok H' tl _ (k1.setRecent ?_) ?_ (by omega) ?_)
  · intro e he' hm
    exact k1.recent e (List.mem_filter.1 he').1 hm
  · unfold AtEnd at g2 ⊢
    rw [k3, k2, g2]
  · exact k4.trans (g4.trans h4)

theorem mem_insertRecent {id : Nat} {d : Bytes} {r : List (Nat × Bytes)} {e : Nat × Bytes}
    (h : e ∈ (id, d) :: r.filter fun e => decide (e.1 ≠ id)) : e = (id, d) ∨ e ∈ r := by
  rcases List.mem_cons.1 h with h | h
  · exact Or.inl h
  · exact Or.inr (List.mem_filter.1 h).1

/-- Writing a blob. -/
theorem hoare_append_raw {dbg : Bool} {d : Bytes} (h : At q ps c H B w) (h8 : 8 ≤ ps) :
    Hoare (append dbg d) w (¬ q ∨ ps - 8 < d.length ∨ maxFile < B.length + ps + d.length + 4100)
      (fun id w' => ∃ H' tl r pre, At q ps id H' (B ++ tl) { w' with recent := r } ∧ w'.recent = (id, d) :: r ∧
        id = (B ++ tl).length ∧ B ++ tl = pre ++ d ++ toBE 4 d.length ∧
        d.length + 4 ≤ id % ps ∧ B.length < id ∧ w'.lastId = id ∧ d.length ≤ ps - 8 ∧ id ≤ B.length + ps + d.length + 4)
      (fun w' => ∃ H' tl, At q ps c H' (B ++ tl) w') := by
  have hps : 0 < ps := by omega
  refine hoare_bind (hoare_self ?_)
  rw [h.psz]
  refine hoare_bind (hoare_sub64 (fun _ => ?_) (fun hh => absurd h8 hh))
  refine hoare_bind (hoare_ensure (fun hb => ?_) (fun hb => ⟨Or.inr (Or.inl (by simpa using hb)), H, [], by simpa using h⟩))
  have hd : d.length ≤ ps - 8 := by simpa using hb
  refine hoare_bind (hoare_seekEnd ?_)
  have hlen := h.len
  rw [if_neg (by rw [hlen]; simp [headerSize])]
  have e1 : w.data.length - headerSize = B.length := by rw [hlen]; simp [headerSize]
  simp only [e1, page]
  have h := h.setPos w.data.length
  have he : AtEnd { w with pos := w.data.length } := rfl
  -- the rest, from a place where the record fits into the page
  have rest : ∀ H1 tl w1, At q ps c H1 (B ++ tl) w1 → AtEnd w1 → ((B ++ tl).length + (d.length + 4)) / ps = (B ++ tl).length / ps →
      (B ++ tl).length ≤ B.length + ps → Hoare (do
        writeAll d
        writeAll (toBE 4 d.length)
        let id ← commit
        update fun w => { w with lastId := id }
        insertRecent id d
        if id % ps < 4 then
          unless id % 1024 > 4 do panic
        return id) w1 (¬ q ∨ ps - 8 < d.length ∨ maxFile < B.length + ps + d.length + 4100)
      (fun id w' => ∃ H' tl r pre, At q ps id H' (B ++ tl) { w' with recent := r } ∧ w'.recent = (id, d) :: r ∧
        id = (B ++ tl).length ∧ B ++ tl = pre ++ d ++ toBE 4 d.length ∧
        d.length + 4 ≤ id % ps ∧ B.length < id ∧ w'.lastId = id ∧ d.length ≤ ps - 8 ∧ id ≤ B.length + ps + d.length + 4)
      (fun w' => ∃ H' tl, At q ps c H' (B ++ tl) w') := by
    intro H1 tl w1 a1 a2 a3 a4
    refine hoare_bind (hoare_writeAll a1 a2 ?_ ?_ ?_)
    · rintro (hh | hh)
      · exact Or.inl hh
      · exact Or.inr (Or.inr (by omega))
    rotate_left
    · intro n w' g; rw [List.append_assoc] at g; exact ⟨_, _, g⟩
    intro w2 b1 b2 b3
    refine hoare_bind (hoare_writeAll b1 b2 ?_ ?_ ?_)
    · rintro (hh | hh)
      · exact Or.inl hh
      · rw [List.length_append, toBE_length] at hh
        exact Or.inr (Or.inr (by omega))
    rotate_left
    · intro n w' g; rw [List.append_assoc, List.append_assoc] at g; exact ⟨_, _, g⟩
    intro w3 c1 c2 c3
    refine hoare_bind (hoare_commit c1 Or.inl ?_ ?_)
    rotate_left
    · intro H' w' g; rw [List.append_assoc, List.append_assoc] at g; exact ⟨_, _, g⟩
    intro H4 w4 d1 d2 d3 d4
    have hl : (B ++ tl ++ d ++ toBE 4 d.length).length = (B ++ tl).length + (d.length + 4) := by
      simp only [List.length_append, toBE_length]; omega
    have hmod : d.length + 4 ≤ (B ++ tl ++ d ++ toBE 4 d.length).length % ps := by
      rw [hl]
      have m1 := Nat.div_add_mod ((B ++ tl).length + (d.length + 4)) ps
      have m2 := Nat.div_add_mod (B ++ tl).length ps
      rw [a3] at m1
      omega
    refine hoare_bind (hoare_update (hoare_bind (hoare_update ?_)))
    have hmax := d1.max
    simp only [maxFile] at hmax
    have hfin : At q ps (B ++ tl ++ d ++ toBE 4 d.length).length H4 (B ++ tl ++ d ++ toBE 4 d.length)
        { w4 with
          lastId := (B ++ tl ++ d ++ toBE 4 d.length).length
          recent := w4.recent.filter fun e => decide (e.1 ≠ (B ++ tl ++ d ++ toBE 4 d.length).length) } := by
      refine ⟨d1.data, d1.hlen, ?_, d1.max, d1.psz, Nat.le_refl _, ?_, d1.quiet⟩
      · rw [d3]; exact hdr_self (Nat.le_refl _) (by omega)
      · intro e he' hm
        exact d1.recent e (List.mem_filter.1 he').1 hm
    rw [if_neg (by omega)]
    refine hoare_pure ?_
    refine ⟨H4, tl ++ d ++ toBE 4 d.length,
      w4.recent.filter fun e => decide (e.1 ≠ (B ++ tl ++ d ++ toBE 4 d.length).length), B ++ tl, ?_⟩
    rw [show B ++ (tl ++ d ++ toBE 4 d.length) = B ++ tl ++ d ++ toBE 4 d.length by simp]
    refine ⟨hfin, rfl, rfl, rfl, hmod, ?_, rfl, hd, ?_⟩
    · rw [hl, List.length_append]; omega
    · rw [hl]; omega
  split
  · rename_i hne
    have hlt : B.length < B.length / ps * ps + ps := by
      have := Nat.lt_div_mul_add (a := B.length) hps
      omega
    have hge : B.length / ps * ps ≤ B.length := Nat.div_mul_le_self _ _
    refine hoare_bind (hoare_closePage h he (by omega) ?_ ?_ ?_)
    · rintro (hh | hh)
      · exact Or.inl hh
      · exact Or.inr (Or.inr (by omega))
    · intro H' tl w' g1 g2 g3 g4
      refine rest H' tl w' g1 g2 ?_ (by rw [g3]; omega)
      rw [g3, show B.length / ps * ps + ps = ps * (B.length / ps + 1) by rw [Nat.mul_comm ps, Nat.add_mul, Nat.one_mul],
        Nat.mul_add_div hps, Nat.mul_div_cancel_left _ hps, Nat.div_eq_of_lt (show d.length + 4 < ps by omega), Nat.add_zero]
    · intro H' tl w' g; exact ⟨H', tl, g⟩
  · rename_i heq
    have := rest H [] _ (by simpa using h) he (by simpa using heq) (by simp)
    exact this

theorem hoare_append {dbg : Bool} {d : Bytes} (h : At q ps c H B w) (h8 : 8 ≤ ps)
    (h32 : d.length ≤ ps - 8 → d.length < 2 ^ 32) :
    Hoare (append dbg d) w (¬ q ∨ ps - 8 < d.length ∨ maxFile < B.length + ps + d.length + 4100)
      (fun id w' => ∃ H' tl, At q ps id H' (B ++ tl) w' ∧ id = (B ++ tl).length ∧ RecAt (B ++ tl) id d ∧
        d.length + 4 ≤ id % ps ∧ B.length < id ∧ w'.lastId = id)
      (fun w' => ∃ H' tl, At q ps c H' (B ++ tl) w') := by
  refine hoare_weaken (hoare_append_raw h h8) (fun hh => hh) ?_ (fun _ hh => hh)
  rintro id w' ⟨H', tl, r, pre, h1, h2, h3, h4, h5, h6, h7, h9, _⟩
  have hrec : RecAt (B ++ tl) id d := ⟨h32 h9, by omega, pre, by rw [h3, List.take_length, h4]⟩
  refine ⟨H', tl, ⟨h1.data, h1.hlen, h1.ok, h1.max, h1.psz, h1.last, ?_, h1.quiet⟩, h3, hrec, h5, h6, h7⟩
  intro e he hm
  rw [h2] at he
  rcases List.mem_cons.1 he with rfl | he
  · exact hrec
  · exact h1.recent e he hm

/-! ### Reading -/

theorem hoare_readExact {n : Nat} {ok : Bytes → Inner → Prop} (h : At q ps c H B w)
    (hw : ¬ q ∨ w.data.length < w.pos + n → why)
    (hok : ∀ w', At q ps c H B w' → w'.lastId = w.lastId → w.pos + n ≤ w.data.length →
      ok ((w.data.drop w.pos).take n) w')
    (hbad : ∀ w', At q ps c H B w' → w'.lastId = w.lastId → bad w') : Hoare (readExact n) w why ok bad := by
  refine hoare_bind (hoare_self (hoare_bind (hoare_nextEv h.quiet ?_)))
  intro e evs hqe hq
  cases e with
  | ok =>
    dsimp only
    split
    · rename_i hl
      exact hoare_bind (hoare_update (hoare_pure (hok _ ((h.evs hq).setPos _) rfl hl)))
    · exact hoare_fail (hw (Or.inr (by omega))) (hbad _ (h.evs hq) rfl)
  | fail n => exact hoare_fail (hw (Or.inl fun hh => by cases hqe hh)) (hbad _ (h.evs hq) rfl)
  | crash n => exact hoare_die (hw (Or.inl fun hh => by cases hqe hh)) (hbad _ (h.evs hq) rfl)

theorem At.drop (h : At q ps c H B w) (n : Nat) : w.data.drop (4096 + n) = B.drop n := by
  rw [h.data, ← h.hlen, List.drop_append, List.drop_of_length_le (by omega), List.nil_append]
  congr 1; omega

theorem At.insertRecent (h : At q ps c H B w) {id : Nat} {d : Bytes} (hr : id ≤ maxFile → RecAt B id d) :
    At q ps c H B { w with recent := (id, d) :: w.recent.filter fun e => decide (e.1 ≠ id) } :=
  h.setRecent fun e he hm => by
    rcases mem_insertRecent he with rfl | he
    · exact hr hm
    · exact h.recent e he hm

theorem hoare_loadRecent {dbg : Bool} {id : Nat} (h : At q ps c H B w) (hid : id < 2 ^ 64)
    (hd : dbg = false ∨ id + 4096 < 2 ^ 64) :
    Hoare (loadRecent dbg id) w (¬ (q ∧ ∃ d, RecAt B id d))
      (fun _ w' => At q ps c H B w' ∧ w'.lastId = w.lastId ∧ ∃ x, findRecent w' id = some x)
      (fun w' => At q ps c H B w' ∧ w'.lastId = w.lastId) := by
  have hB := h.max
  have hlen := h.len
  have hins : ∀ (w' : Inner) (x : Bytes), ∃ y, findRecent { w' with recent := (id, x) :: w'.recent.filter fun e => decide (e.1 ≠ id) } id
      = some y := fun w' x => ⟨x, by simp [findRecent]⟩
  refine hoare_bind (hoare_ensure (fun hb => ?_) (fun hb => ⟨?_, h, rfl⟩))
  rotate_left
  · rintro ⟨_, d, hr⟩
    have := (rec_size hr).1
    simp at hb; omega
  have h4 : 4 ≤ id := by simpa using hb
  have hcase := Nat.lt_or_ge maxFile id
  rcases hcase with hm | hm
  rotate_left
  · have hm' : id < 2 ^ 63 := by simp only [maxFile] at hm; omega
    refine hoare_bind (hoare_add64 (fun _ => ?_) (fun hh => absurd (by simp only [headerSize]; omega) hh))
    refine hoare_bind (hoare_sub64 (fun _ => ?_) (fun hh => absurd (by simp only [headerSize]; omega) hh))
    refine hoare_bind (hoare_seekStart (fun _ => ?_) (fun hh => ⟨?_, h, rfl⟩))
    rotate_left
    · rintro ⟨_, d, hr⟩
      have := hr.2.1
      simp only [headerSize] at hh
      omega
    refine hoare_bind (hoare_readExact (h.setPos _) ?_ ?_ (fun w' g1 g2 => ⟨g1, g2⟩))
    · rintro (hh | hh)
      · exact fun hx => hh hx.1
      · rintro ⟨_, d, hr⟩
        have := hr.2.1
        simp only [headerSize] at hh
        omega
    intro w1 g1 g2 g3
    simp only [headerSize] at g3
    dsimp only
    have e1 : (w.data.drop (id + headerSize - 4)).take 4 = (B.drop (id - 4)).take 4 := by
      rw [show id + headerSize - 4 = 4096 + (id - 4) by simp only [headerSize]; omega, h.drop]
    rw [e1]
    generalize hs : ofBE ((B.drop (id - 4)).take 4) = size
    refine hoare_bind (hoare_ensure (fun hb => ?_) (fun hb => ⟨?_, g1, g2⟩))
    rotate_left
    · rintro ⟨_, d, hr⟩
      have r := rec_size hr
      rw [hs] at r
      simp at hb; omega
    have hsz : 4 + size ≤ id := by simpa using hb
    refine hoare_bind (hoare_add64 (fun _ => ?_) (fun hh => absurd (by simp only [headerSize]; omega) hh))
    refine hoare_bind (hoare_sub64 (fun _ => ?_) (fun hh => absurd (by simp only [headerSize]; omega) hh))
    refine hoare_bind (hoare_sub64 (fun _ => ?_) (fun hh => absurd (by simp only [headerSize]; omega) hh))
    refine hoare_bind (hoare_seekStart (fun _ => ?_) (fun hh => absurd (by simp only [headerSize]; omega) hh))
    have hlen1 := g1.len
    refine hoare_bind (hoare_readExact (g1.setPos _) ?_ ?_ (fun w' k1 k2 => ⟨k1, k2.trans g2⟩))
    · rintro (hh | hh)
      · exact fun hx => hh hx.1
      · simp only [headerSize] at hh; omega
    intro w2 k1 k2 k3
    refine hoare_bind (hoare_seekEnd (hoare_update ?_))
    refine ⟨(k1.setPos _).insertRecent fun _ => ?_, k2.trans g2, hins _ _⟩
    dsimp only
    rw [show id + headerSize - 4 - size = 4096 + (id - 4 - size) by simp only [headerSize]; omega, g1.drop]
    exact rec_of_read (by omega) hs hsz
  · have hno : ¬ (q ∧ ∃ d, RecAt B id d) := by
      rintro ⟨_, d, hr⟩
      have := hr.2.1
      omega
    have hadd : ∀ {ok : Nat → Inner → Prop} {w}, (∀ n, ok n w) → Hoare (add64 dbg id headerSize) w
        (¬ (q ∧ ∃ d, RecAt B id d)) ok (fun w' => At q ps c H B w' ∧ w'.lastId = w.lastId) := by
      intro ok w hh
      refine hoare_add64 (fun _ => hh _) (fun hx => ⟨?_, hh _⟩)
      rcases hd with hd | hd
      · exact hd
      · exact absurd hd (by rw [headerSize_eq] at hx; exact hx)
    by_cases hov : id + 4096 < 2 ^ 64
    · refine hoare_bind (hoare_add64 (fun _ => ?_) (fun hh => absurd (by simp only [headerSize]; omega) hh))
      refine hoare_bind (hoare_sub64 (fun _ => ?_) (fun hh => absurd (by simp only [headerSize]; omega) hh))
      exact hoare_bind (hoare_seekStart (fun hh => absurd hh (by simp only [headerSize]; omega)) (fun hh => ⟨hno, h, rfl⟩))
    · obtain rfl : dbg = false := hd.resolve_right hov
      refine hoare_bind (hoare_add64 (fun hh => absurd hh (by simp only [headerSize]; omega)) (fun _ => ⟨rfl, ?_⟩))
      have sub : ∀ {a b : Nat} {ok : Nat → Inner → Prop} {w : Inner} {bad : Inner → Prop}, (∀ n, ok n w) →
          Hoare (sub64 false a b) w (¬ (q ∧ ∃ d, RecAt B id d)) ok bad :=
        fun hh => hoare_sub64 (fun _ => hh _) (fun _ => ⟨rfl, hh _⟩)
      refine hoare_bind (sub fun p => ?_)
      refine hoare_bind (hoare_seekStart (fun _ => ?_) (fun hh => ⟨hno, h, rfl⟩))
      refine hoare_bind (hoare_readExact (h.setPos _) (fun _ => hno) ?_ (fun w' g1 g2 => ⟨g1, g2⟩))
      intro w1 g1 g2 g3
      dsimp only
      refine hoare_bind (hoare_ensure (fun _ => ?_) (fun hb => ⟨hno, g1, g2⟩))
      refine hoare_bind (hoare_add64 (fun hh => absurd hh (by simp only [headerSize]; omega)) (fun _ => ⟨rfl, ?_⟩))
      refine hoare_bind (sub fun p2 => ?_)
      refine hoare_bind (sub fun p3 => ?_)
      refine hoare_bind (hoare_seekStart (fun _ => ?_) (fun hh => ⟨hno, g1, g2⟩))
      refine hoare_bind (hoare_readExact (g1.setPos _) (fun _ => hno) ?_ (fun w' k1 k2 => ⟨k1, k2.trans g2⟩))
      intro w2 k1 k2 k3
      refine hoare_bind (hoare_seekEnd (hoare_update ?_))
      exact ⟨(k1.setPos _).insertRecent fun hh => absurd hh (Nat.not_le.2 hm), k2.trans g2, hins _ _⟩

theorem find_mem {id : Nat} {x : Bytes} (h : findRecent w id = some x) : (id, x) ∈ w.recent := by
  unfold findRecent at h
  rw [Option.map_eq_some_iff] at h
  obtain ⟨⟨i, y⟩, h1, rfl⟩ := h
  have := List.find?_some h1
  simp only [decide_eq_true_eq] at this
  subst this
  exact List.mem_of_find?_eq_some h1

/-- Reading any id: the store does not change but for its caches; if a record is there, it is read. -/
theorem hoare_bytes {dbg : Bool} {id : Nat} (h : At q ps c H B w) (hps : 0 < ps) (hid : id < 2 ^ 64)
    (hd : dbg = false ∨ 1 ≤ id ∧ id + 4096 < 2 ^ 64) :
    Hoare (bytes dbg id) w (¬ (q ∧ ∃ d, RecAt B id d ∧ d.length + 4 ≤ id % ps))
      (fun x w' => (At q ps c H B w' ∧ w'.lastId = w.lastId) ∧ ∀ d, RecAt B id d → d.length + 4 ≤ id % ps → x = d)
      (fun w' => At q ps c H B w' ∧ w'.lastId = w.lastId) := by
  have hB := h.max
  have hlast := h.last
  have hlen := h.len
  refine hoare_bind (hoare_self ?_)
  rw [h.psz]
  dsimp only
  -- both cases after the page number
  have recentCase : Hoare (do
      unless (findRecent w id).isSome do loadRecent dbg id
      match findRecent (← self) id with
      | some blob => pure blob
      | none => panic) w (¬ (q ∧ ∃ d, RecAt B id d ∧ d.length + 4 ≤ id % ps))
      (fun x w' => (At q ps c H B w' ∧ w'.lastId = w.lastId) ∧ ∀ d, RecAt B id d → d.length + 4 ≤ id % ps → x = d)
      (fun w' => At q ps c H B w' ∧ w'.lastId = w.lastId) := by
    have fin : ∀ w', At q ps c H B w' → w'.lastId = w.lastId → (∃ x, findRecent w' id = some x) → Hoare (do
        match findRecent (← self) id with
        | some blob => pure blob
        | none => panic) w' (¬ (q ∧ ∃ d, RecAt B id d ∧ d.length + 4 ≤ id % ps))
        (fun x w' => (At q ps c H B w' ∧ w'.lastId = w.lastId) ∧ ∀ d, RecAt B id d → d.length + 4 ≤ id % ps → x = d)
        (fun w' => At q ps c H B w' ∧ w'.lastId = w.lastId) := by
      rintro w' g1 g2 ⟨x, g3⟩
      refine hoare_bind (hoare_self ?_)
      rw [g3]
      refine hoare_pure ⟨⟨g1, g2⟩, fun d hr hp => ?_⟩
      have hmax : id ≤ maxFile := by have := hr.2.1; omega
      exact rec_unique (g1.recent _ (find_mem g3) hmax) hr
    split
    · rename_i hsome
      rw [Option.isSome_iff_exists] at hsome
      exact fin w h rfl hsome
    · refine hoare_bind ?_
      refine hoare_weaken (hoare_loadRecent h hid (hd.imp (fun h => h) (·.2))) ?_ ?_ ?_
      · rintro hh ⟨hq, d, hr, _⟩; exact hh ⟨hq, d, hr⟩
      · rintro _ w' ⟨g1, g2, g3⟩; exact fin w' g1 g2 g3
      · exact fun w' hh => hh
  refine hoare_bind (hoare_sub64 (fun h1 => ?_) (fun h1 => ⟨?_, ?_⟩))
  · split
    · rename_i hlt
      have hlt : (id - 1) / ps < w.lastId / ps := hlt
      have hp1 : ((id - 1) / ps + 1) * ps ≤ w.lastId := (Nat.le_div_iff_mul_le hps).1 hlt
      rw [Nat.add_mul, Nat.one_mul] at hp1
      have fin : ∀ w', At q ps c H B w' → w'.lastId = w.lastId → Hoare (pageBytes ((id - 1) / ps) (id % ps)) w'
          (¬ (q ∧ ∃ d, RecAt B id d ∧ d.length + 4 ≤ id % ps))
          (fun x w' => (At q ps c H B w' ∧ w'.lastId = w.lastId) ∧ ∀ d, RecAt B id d → d.length + 4 ≤ id % ps → x = d)
          (fun w' => At q ps c H B w' ∧ w'.lastId = w.lastId) := by
        intro w' g1 g2
        refine hoare_bind (hoare_self ?_)
        dsimp only
        have hmod : id % ps < ps := Nat.mod_lt _ hps
        have hpg : (w'.data.drop (offsetOfPage ((id - 1) / ps) w'.pageSize)).take w'.pageSize =
            (B.drop ((id - 1) / ps * ps)).take ps := by
          rw [g1.psz, offsetOfPage, headerSize, Nat.add_comm, g1.drop]
        rw [hpg]
        refine hoare_bind (hoare_ensure (fun hb => ?_) (fun hb => ⟨?_, g1, g2⟩))
        rotate_left
        · rintro ⟨_, d, hr, hp⟩; simp at hb; omega
        have h4 : 4 ≤ id % ps := by simpa using hb
        have hpl : ((B.drop ((id - 1) / ps * ps)).take ps).length = ps := by
          simp only [List.length_take, List.length_drop]; omega
        refine hoare_bind ?_
        rw [sliceBefore, if_pos ⟨h4, by rw [hpl]; omega⟩]
        refine hoare_pure ?_
        have hdec := Nat.div_add_mod id ps
        have hdiv : (id - 1) / ps = id / ps := by
          have e : id - 1 = id % ps - 1 + ps * (id / ps) := by omega
          rw [e, Nat.add_mul_div_left _ _ hps, Nat.div_eq_of_lt (show id % ps - 1 < ps by omega), Nat.zero_add]
        have hpl' : ((B.drop (ps * (id / ps))).take ps).length = ps := by
          rw [hdiv, Nat.mul_comm (id / ps) ps] at hpl; exact hpl
        rw [hdiv, Nat.mul_comm (id / ps) ps] at *
        have hslice : ∀ k n, k + n ≤ id % ps → (((B.drop (ps * (id / ps))).take ps).drop k).take n =
            (B.drop (ps * (id / ps) + k)).take n := by
          intro k n hkn
          rw [List.drop_take, List.take_take, List.drop_drop, Nat.min_eq_left (by omega)]
        rw [hslice _ _ (by omega), show ps * (id / ps) + (id % ps - 4) = id - 4 by omega]
        generalize hs : ofBE ((B.drop (id - 4)).take 4) = size
        refine hoare_bind (hoare_ensure (fun hb => ?_) (fun hb => ⟨?_, g1, g2⟩))
        rotate_left
        · rintro ⟨_, d, hr, hp⟩
          have r := rec_size hr
          rw [hs] at r
          simp at hb; omega
        have hsz : size + 4 ≤ id % ps := by simpa using hb
        rw [sliceBefore, if_pos ⟨by omega, by rw [hpl']; omega⟩]
        rw [hslice _ _ (by omega), show ps * (id / ps) + (id % ps - 4 - size) = id - 4 - size by omega]
        refine hoare_pure ⟨⟨g1, g2⟩, fun d hr hp => ?_⟩
        have r := rec_size hr
        rw [hs] at r
        rw [r.2.1]; exact r.2.2
      split
      · exact fin w h rfl
      · refine hoare_bind (hoare_loadPage h ?_ ?_ (fun w' g1 g2 => ⟨g1, g2⟩))
        · rintro hh ⟨hq, _⟩; exact hh hq
        · intro w' g1 _ _ g4; exact fin w' g1 g4
    · exact recentCase
  · rcases hd with hd | hd
    · exact hd
    · exact absurd hd.1 h1
  · have h0 : id = 0 := by omega
    subst h0
    rw [if_neg]
    · exact recentCase
    · have : w.lastId ≤ 2 ^ 64 - (1 - 0) := by simp only [maxFile] at hB; omega
      have := Nat.div_le_div_right (c := ps) this
      simp only [page]
      omega

/-! ### Opening -/

theorem hoare_setLen {n : Nat} {ok : Unit → Inner → Prop} (hq : q → Quiet w) (hw : ¬ q ∨ maxFile < n → why)
    (hok : ∀ evs, (q → Quiet { w with evs := evs }) → n ≤ maxFile → ok ()
      { w with evs := evs, data := w.data.take n ++ List.replicate (n - w.data.length) 0 })
    (hbad : ∀ evs, (q → Quiet { w with evs := evs }) → bad { w with evs := evs }) : Hoare (setLen n) w why ok bad := by
  refine hoare_bind (hoare_nextEv hq ?_)
  intro e evs hqe hq
  cases e with
  | ok =>
    dsimp only
    split
    · rename_i hl
      exact hoare_update (hok evs hq hl)
    · exact hoare_fail (hw (Or.inr (by omega))) (hbad evs hq)
  | fail n => exact hoare_fail (hw (Or.inl fun hh => by cases hqe hh)) (hbad evs hq)
  | crash n => exact hoare_die (hw (Or.inl fun hh => by cases hqe hh)) (hbad evs hq)

/-- The records up to `c` are kept. -/
def Kept (c : Nat) (B B' : Bytes) : Prop := ∀ id d, id ≤ c → RecAt B id d → RecAt B' id d

/-- `Inner::new` behind the check of the header. -/
theorem hoare_new_tail {dbg : Bool} (h : At q ps c H B w) :
    Hoare (do
      let size ← readSize
      let len ← add64 dbg size headerSize
      setLen len
      let _ ← seekEnd
      update fun w => { w with pages := [], recent := [], lastId := size }) w (¬ q ∨ 2 ^ 62 ≤ B.length)
      (fun _ w' => ∃ B', At q ps c H B' w' ∧ B' = B.take (hdr H) ++ List.replicate (hdr H - B.length) 0 ∧ w'.lastId = B'.length ∧
        w'.lastId = hdr H)
      (fun w' => At q ps c H B w') := by
  have hlen := h.len
  obtain ⟨k1, k2, k3, k4, k5⟩ := h.ok
  refine hoare_bind ?_
  refine hoare_bind (hoare_seekStart (fun _ => ?_) (fun hh => absurd (by decide) hh))
  refine hoare_bind (hoare_readExact (h.setPos _) ?_ ?_ (fun w' g _ => g))
  · rintro (hh | hh)
    · exact Or.inl hh
    · dsimp only at hh; omega
  intro w1 g1 g2 g3
  have e1 : ofBE ((w.data.drop 16).take 8) = hdr H := by
    have e16 : 16 ≤ H.length := by rw [h.hlen]; decide
    have e8 : 8 ≤ (H.drop 16).length := by rw [List.length_drop, h.hlen]; decide
    rw [h.data, List.drop_append_of_le_length e16, List.take_append_of_le_length e8, hdr]
  dsimp only
  rw [e1]
  refine hoare_bind (hoare_seekEnd ?_)
  refine hoare_pure ?_
  refine hoare_bind (hoare_add64 (fun _ => ?_) (fun hh => absurd (by simp only [headerSize]; omega) hh))
  have g1 := g1.setPos w1.data.length
  have hlen1 := g1.len
  refine hoare_bind (hoare_setLen g1.quiet ?_ ?_ (fun evs hq => g1.evs hq))
  · rintro (hh | hh)
    · exact Or.inl hh
    · right
      by_cases hlt : B.length < 2 ^ 62
      · have := k5 hlt
        simp only [maxFile, headerSize] at hh; omega
      · omega
  intro evs hq hmax
  refine hoare_bind (hoare_seekEnd (hoare_update ?_))
  have hl2 : (B.take (hdr H) ++ List.replicate (hdr H - B.length) (0 : UInt8)).length = hdr H := by simp; omega
  refine ⟨B.take (hdr H) ++ List.replicate (hdr H - B.length) 0, ⟨?_, h.hlen, ?_, ?_, h.psz ▸ g1.psz, ?_, by simp, hq⟩,
    rfl, hl2.symm, rfl⟩
  · dsimp only at hlen1 ⊢
    rw [hlen1, g1.data, Nat.add_comm (hdr H) headerSize, show headerSize = H.length by rw [h.hlen, headerSize_eq],
      List.take_length_add_append, List.append_assoc, h.hlen]
    congr 3; omega
  · rw [hl2]
    exact hdr_self k2 (by omega)
  · rw [hl2]
    simpa [headerSize] using hmax
  · rw [hl2]; exact Nat.le_refl _

/-- The file is cut off, or filled with zeros, at the size in the header. -/
theorem hoare_new_exact {dbg : Bool} (h : At q ps c H B w) :
    Hoare (new dbg) w (¬ q ∨ 2 ^ 62 ≤ B.length ∨ ps % 8 ≠ 0)
      (fun _ w' => ∃ B', At q ps c H B' w' ∧ B' = B.take (hdr H) ++ List.replicate (hdr H - B.length) 0 ∧ w'.lastId = B'.length ∧
        w'.lastId = hdr H)
      (fun w' => At q ps c H B w') := by
  have hlen := h.len
  refine hoare_bind (hoare_self (hoare_bind (hoare_ensure (fun hb => ?_)
    (fun hb => ⟨Or.inr (Or.inr (by rw [← h.psz]; simpa using hb)), h⟩))))
  refine hoare_bind (hoare_seekEnd ?_)
  rw [if_neg (by omega), if_neg (by simp only [headerSize]; omega)]
  refine hoare_weaken (hoare_new_tail (h.setPos _)) (fun hh => hh.imp id Or.inl) (fun _ _ hh => hh) (fun _ hh => hh)

theorem hoare_new {dbg : Bool} (h : At q ps c H B w) :
    Hoare (new dbg) w (¬ q ∨ 2 ^ 62 ≤ B.length ∨ ps % 8 ≠ 0)
      (fun _ w' => ∃ H' B', At q ps c H' B' w' ∧ Kept c B B' ∧ w'.lastId = B'.length ∧ w'.lastId = hdr H)
      (fun w' => At q ps c H B w') := by
  refine hoare_weaken (hoare_new_exact h) (fun hh => hh) ?_ (fun _ hh => hh)
  rintro _ w' ⟨B', g1, rfl, g2, g3⟩
  exact ⟨H, _, g1, fun id d hi hr => rec_grow _ (rec_take hr (Nat.le_trans hi h.ok.2.1)), g2, g3⟩

theorem hoare_new_empty {dbg : Bool} (hd : w.data = []) (hps : w.pageSize = ps) (hlast : w.lastId = 0) (hr : w.recent = [])
    (hq : q → Quiet w) :
    Hoare (new dbg) w (¬ q ∨ ps % 8 ≠ 0)
      (fun _ w' => ∃ H' B', At q ps 0 H' B' w' ∧ w'.lastId = B'.length ∧ w'.lastId = 0)
      (fun w' => w'.data = [] ∨ ∃ H' B', At q ps 0 H' B' w') := by
  refine hoare_bind (hoare_self (hoare_bind (hoare_ensure (fun hb => ?_)
    (fun hb => ⟨Or.inr (by rw [← hps]; simpa using hb), Or.inl hd⟩))))
  refine hoare_bind (hoare_seekEnd ?_)
  rw [if_pos (by rw [hd]; rfl)]
  refine hoare_bind (hoare_setLen hq ?_ ?_ (fun evs hq => Or.inl hd))
  · rintro (hh | hh)
    · exact Or.inl hh
    · exact absurd hh (by rw [headerSize_eq]; decide)
  intro evs hq hmax
  refine hoare_bind (hoare_seekEnd ?_)
  have h0 : hdr (List.replicate 4096 0) = 0 := by decide +kernel
  have hat : At q ps 0 (List.replicate 4096 0) []
      { w with
        evs := evs, data := w.data.take headerSize ++ List.replicate (headerSize - w.data.length) 0
        pos := (w.data.take headerSize ++ List.replicate (headerSize - w.data.length) (0 : UInt8)).length } := by
    have e0 : ([] : Bytes).take headerSize ++ List.replicate (headerSize - ([] : Bytes).length) 0 =
        List.replicate 4096 0 ++ [] := by rw [List.take_nil, List.nil_append, List.append_nil, headerSize_eq]; rfl
    refine ⟨by rw [hd]; exact e0, List.length_replicate, ?_, by decide, hps, by rw [hlast]; exact Nat.zero_le _,
      fun e he => ?_, hq⟩
    rotate_left
    · dsimp only at he; rw [hr] at he; cases he
    rw [h0]
    exact ⟨Nat.le_refl _, Nat.le_refl _, fun k _ => rfl, by decide, by simp⟩
  refine hoare_weaken (hoare_new_tail hat) ?_ ?_ ?_
  · rintro (hh | hh)
    · exact Or.inl hh
    · exact absurd hh (by simp)
  · rintro _ w' ⟨B', g1, g2, g3, g4⟩
    exact ⟨_, B', g1, g3, by rw [g4, h0]⟩
  · intro w' g1; exact Or.inr ⟨_, _, g1⟩

end Radix.Paged
