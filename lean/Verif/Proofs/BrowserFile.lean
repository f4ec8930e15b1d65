import Verif.Proofs.BrowserName

/-
Helper lemmas: reading chunks from the cache, and executing plans.
-/

set_option linter.unusedVariables false

namespace Radix.Browser

/-! ### The calculus -/

theorem m_bind {α β : Type} (x : M α) (f : α → M β) (w : File) : (x >>= f) w = M.bind x f w := rfl
theorem m_pure {α : Type} (a : α) (w : File) : (pure a : M α) w = (.ok a, w) := rfl

theorem bind_ok {α β : Type} {x : M α} {f : α → M β} {w w' : File} {a : α} (h : x w = (.ok a, w')) : (x >>= f) w = f a w' := by
  rw [m_bind]; unfold M.bind; rw [h]
theorem bind_err {α β : Type} {x : M α} {f : α → M β} {w w' : File} (h : x w = (.err, w')) : (x >>= f) w = (.err, w') := by
  rw [m_bind]; unfold M.bind; rw [h]
theorem bind_panic {α β : Type} {x : M α} {f : α → M β} {w w' : File} (h : x w = (.panic, w')) : (x >>= f) w = (.panic, w') := by
  rw [m_bind]; unfold M.bind; rw [h]
theorem bind_crash {α β : Type} {x : M α} {f : α → M β} {w w' : File} (h : x w = (.crash, w')) : (x >>= f) w = (.crash, w') := by
  rw [m_bind]; unfold M.bind; rw [h]

/-- Nothing bad happens. -/
def Calm (evs : List Ev) : Prop := ∀ e ∈ evs, e = Ev.ok

/-- What a cache operation does. -/
theorem cacheOp_cases (f : Cache → Cache) (w : File) : ∃ evs', (Calm w.evs → Calm evs') ∧
    (cacheOp f w = (.ok (), { w with cache := f w.cache, evs := evs' }) ∨
      ¬ Calm w.evs ∧ (cacheOp f w = (.err, { w with evs := evs' }) ∨
        cacheOp f w = (.crash, { w with cache := f w.cache, evs := evs' }) ∨ cacheOp f w = (.crash, { w with evs := evs' }))) := by
  obtain ⟨cache, name, chunks, evs⟩ := w
  match evs with
  | [] => exact ⟨[], fun h => h, Or.inl rfl⟩
  | e :: evs =>
    refine ⟨evs, fun h x hx => h x (by simp [hx]), ?_⟩
    match e with
    | .ok => exact Or.inl rfl
    | .fail => exact Or.inr ⟨fun h => absurd (h .fail (by simp)) (by simp), Or.inl rfl⟩
    | .crash true => exact Or.inr ⟨fun h => absurd (h (.crash true) (by simp)) (by simp), Or.inr (Or.inl rfl)⟩
    | .crash false => exact Or.inr ⟨fun h => absurd (h (.crash false) (by simp)) (by simp), Or.inr (Or.inr rfl)⟩

/-! ### The cache -/

theorem get_set_self (cache : Cache) (k : List Char) (d : Bytes) : (cache.set k d).get k = some d := by
  unfold Cache.set Cache.get
  rw [List.find?_append]
  have : (Cache.del cache k).find? (fun e => decide (e.1 = k)) = none := by
    rw [List.find?_eq_none]
    intro e he
    simpa [Cache.del] using (List.mem_filter.1 he).2
  rw [this]; simp

theorem get_del_ne (cache : Cache) {k k' : List Char} (h : k' ≠ k) : (cache.del k).get k' = cache.get k' := by
  unfold Cache.del Cache.get
  congr 1
  rw [List.find?_filter]
  congr 1
  funext e
  by_cases he : e.1 = k'
  · simp [he, h]
  · simp [he]

theorem get_set_ne (cache : Cache) {k k' : List Char} (d : Bytes) (h : k' ≠ k) : (cache.set k d).get k' = cache.get k' := by
  rw [← get_del_ne cache h]
  unfold Cache.set Cache.get
  rw [List.find?_append]
  simp [Ne.symm h]

theorem get_mem {cache : Cache} {k : List Char} {d : Bytes} (h : cache.get k = some d) : (k, d) ∈ cache := by
  unfold Cache.get at h
  obtain ⟨e, he, hd⟩ := Option.map_eq_some_iff.1 h
  have h1 := List.mem_of_find?_eq_some he
  have h2 := List.find?_some he
  simp only [decide_eq_true_eq] at h2
  obtain ⟨a, b⟩ := e
  simp only at h2 hd
  subst h2; subst hd; exact h1

theorem mem_get {cache : Cache} {e : List Char × Bytes} (h : e ∈ cache) : ∃ d, cache.get e.1 = some d := by
  unfold Cache.get
  have : (cache.find? fun x => decide (x.1 = e.1)).isSome := by
    rw [List.find?_isSome]
    exact ⟨e, h, by simp⟩
  obtain ⟨x, hx⟩ := Option.isSome_iff_exists.1 this
  exact ⟨x.2, by rw [hx]; rfl⟩

theorem mem_del {cache : Cache} {k : List Char} {e : List Char × Bytes} : e ∈ cache.del k ↔ e ∈ cache ∧ e.1 ≠ k := by
  simp [Cache.del]

theorem mem_set {cache : Cache} {k : List Char} {d : Bytes} {e : List Char × Bytes} :
    e ∈ cache.set k d ↔ e ∈ cache ∧ e.1 ≠ k ∨ e = (k, d) := by
  simp [Cache.set, Cache.del]

theorem foldl_insert_mem {c : Chunk} : ∀ {l cs : List Chunk}, c ∈ l.foldl (fun cs c => insert c cs) cs ↔ c ∈ l ∨ c ∈ cs
  | [], cs => by simp
  | d :: l, cs => by
    rw [List.foldl_cons, foldl_insert_mem, mem_insert, List.mem_cons]
    constructor
    · rintro (h | h | h) <;> simp [h]
    · rintro ((h | h) | h) <;> simp [h]

theorem foldl_insert_sorted : ∀ {l cs : List Chunk}, Sorted cs → Sorted (l.foldl (fun cs c => insert c cs) cs)
  | [], cs, h => h
  | d :: l, cs, h => foldl_insert_sorted (l := l) (sorted_insert h)

theorem sorted_chunksOf (cache : Cache) (name : Name) : Sorted (chunksOf cache name) := foldl_insert_sorted List.Pairwise.nil

theorem mem_chunksOf {cache : Cache} {name : Name} {c : Chunk} :
    c ∈ chunksOf cache name ↔ ∃ e ∈ cache, parseRequest e.1 name = some c := by
  unfold chunksOf
  rw [foldl_insert_mem, List.mem_filterMap]
  simp

/-- The entries of a file are its chunks, under their names and with the right sizes. -/
def CInv (name : Name) (cache : Cache) : Prop :=
  (∀ x ∈ name, x ≠ '?') ∧
  ∀ e ∈ cache, ∀ c, parseRequest e.1 name = some c → e.1 = c.request name ∧ c.Valid ∧ e.2.length = c.len

/-- The bytes of a chunk. -/
def dat (name : Name) (cache : Cache) (c : Chunk) : Bytes := (cache.get (c.request name)).getD []

/-- The byte of the file at `p`. -/
def byteAt (name : Name) (cache : Cache) (p : Nat) : UInt8 := view (chunksOf cache name) (dat name cache) p

theorem parse_own {name : Name} (hp : ∀ x ∈ name, x ≠ '?') {c : Chunk} (hv : c.Valid) : parseRequest (c.request name) name = some c := by
  unfold Chunk.Valid at hv
  rw [parse_request hp hv.1 (by omega) (by omega), if_pos rfl]

theorem CInv.chunk {name : Name} {cache : Cache} (h : CInv name cache) {c : Chunk} (hc : c ∈ chunksOf cache name) :
    c.Valid ∧ cache.get (c.request name) = some (dat name cache c) ∧ (dat name cache c).length = c.len := by
  obtain ⟨e, he, hpe⟩ := mem_chunksOf.1 hc
  obtain ⟨h1, h2, h3⟩ := h.2 e he c hpe
  obtain ⟨d, hd⟩ := mem_get he
  rw [h1] at hd
  have hm := get_mem hd
  have := h.2 _ hm c (parse_own h.1 h2)
  unfold dat
  rw [hd]
  exact ⟨h2, rfl, this.2.2⟩

theorem chunksOf_set {name : Name} {cache : Cache} (h : CInv name cache) {c : Chunk} (hv : c.Valid) (d : Bytes) :
    chunksOf (cache.set (c.request name) d) name = insert c (chunksOf cache name) := by
  refine sorted_ext (sorted_chunksOf _ _) (sorted_insert (sorted_chunksOf _ _)) fun x => ?_
  rw [mem_insert, mem_chunksOf, mem_chunksOf]
  constructor
  · rintro ⟨e, he, hx⟩
    rcases mem_set.1 he with ⟨he, _⟩ | rfl
    · exact Or.inr ⟨e, he, hx⟩
    · rw [parse_own h.1 hv] at hx
      exact Or.inl (Option.some.inj hx).symm
  · rintro (rfl | ⟨e, he, hx⟩)
    · exact ⟨(x.request name, d), mem_set.2 (Or.inr rfl), parse_own h.1 hv⟩
    · by_cases hk : e.1 = c.request name
      · rw [hk, parse_own h.1 hv] at hx
        obtain rfl := Option.some.inj hx
        exact ⟨(c.request name, d), mem_set.2 (Or.inr rfl), parse_own h.1 hv⟩
      · exact ⟨e, mem_set.2 (Or.inl ⟨he, hk⟩), hx⟩

theorem chunksOf_del {name : Name} {cache : Cache} (h : CInv name cache) {c : Chunk} (hv : c.Valid) :
    chunksOf (cache.del (c.request name)) name = remove c (chunksOf cache name) := by
  refine sorted_ext (sorted_chunksOf _ _) (sorted_remove (sorted_chunksOf _ _)) fun x => ?_
  rw [mem_remove, mem_chunksOf, mem_chunksOf]
  constructor
  · rintro ⟨e, he, hx⟩
    obtain ⟨he', hk⟩ := mem_del.1 he
    refine ⟨⟨e, he', hx⟩, ?_⟩
    rintro rfl
    exact hk (h.2 e he' x hx).1
  · rintro ⟨⟨e, he, hx⟩, hne⟩
    refine ⟨e, mem_del.2 ⟨he, fun hk => hne ?_⟩, hx⟩
    rw [hk, parse_own h.1 hv] at hx
    exact (Option.some.inj hx).symm

theorem CInv.set {name : Name} {cache : Cache} (h : CInv name cache) {c : Chunk} (hv : c.Valid) {d : Bytes} (hd : d.length = c.len) :
    CInv name (cache.set (c.request name) d) := by
  refine ⟨h.1, fun e he x hx => ?_⟩
  rcases mem_set.1 he with ⟨he, _⟩ | rfl
  · exact h.2 e he x hx
  · rw [parse_own h.1 hv] at hx
    obtain rfl := Option.some.inj hx
    exact ⟨rfl, hv, hd⟩

theorem CInv.del {name : Name} {cache : Cache} (h : CInv name cache) (k : List Char) : CInv name (cache.del k) :=
  ⟨h.1, fun e he x hx => h.2 e (mem_del.1 he).1 x hx⟩

theorem dat_set_self {name : Name} {cache : Cache} {c : Chunk} {d : Bytes} : dat name (cache.set (c.request name) d) c = d := by
  unfold dat; rw [get_set_self]; rfl

theorem dat_set_ne {name : Name} {cache : Cache} (h : CInv name cache) {c x : Chunk} {d : Bytes} (hv : c.Valid) (hx : x.Valid) (hne : x ≠ c) :
    dat name (cache.set (c.request name) d) x = dat name cache x := by
  unfold dat
  rw [get_set_ne _ _ fun e => hne (request_inj h.1 h.1 hx hv e).1]

theorem dat_del_ne {name : Name} {cache : Cache} (h : CInv name cache) {c x : Chunk} (hv : c.Valid) (hx : x.Valid) (hne : x ≠ c) :
    dat name (cache.del (c.request name)) x = dat name cache x := by
  unfold dat
  rw [get_del_ne _ fun e => hne (request_inj h.1 h.1 hx hv e).1]

/-! ### Reading -/

/-- The `n` bytes from `a` on. -/
def tab (a n : Nat) (v : Nat → UInt8) : Bytes := (List.range n).map fun i => v (a + i)

theorem tab_length (a n : Nat) (v : Nat → UInt8) : (tab a n v).length = n := by simp [tab]

theorem tab_get {a n : Nat} {v : Nat → UInt8} {i : Nat} (h : i < (tab a n v).length) : (tab a n v)[i] = v (a + i) := by simp [tab]

/-- Copying the part of a chunk that is in the range. -/
theorem copyTo_tab {a b : Nat} {v : Nat → UInt8} {c : Chunk} {d : Bytes} (hab : a ≤ b) (ho : overlap c.range (a, b) = true)
    (hd : d.length = c.len) :
    copyTo ((d.take (min (c.offset + c.len) b - c.offset)).drop (max c.offset a - c.offset)) (tab a (b - a) v)
      (max c.offset a - a, min (c.offset + c.len) b - a) =
      .ok (tab a (b - a) fun p => if Covers c p then d.getD (p - c.offset) 0 else v p) := by
  rw [overlap_iff] at ho
  dsimp only [Chunk.range] at ho
  generalize hM : max c.offset a = M
  generalize hm : min (c.offset + c.len) b = m
  unfold copyTo
  dsimp only
  rw [if_pos (by simp only [tab_length, List.length_drop, List.length_take]; omega)]
  congr 1
  apply List.ext_getElem
  · simp only [List.length_append, List.length_take, List.length_drop, tab_length]; omega
  · intro i h1 h2
    rw [tab_get]
    rw [tab_length] at h2
    by_cases hc : Covers c (a + i)
    · rw [if_pos hc]
      unfold Covers at hc
      rw [List.getElem_append_left (by simp only [List.length_append, List.length_take, List.length_drop, tab_length]; omega),
        List.getElem_append_right (by simp only [List.length_take, tab_length]; omega)]
      simp only [List.getElem_drop, List.getElem_take, List.length_take, tab_length]
      rw [List.getD_eq_getElem?_getD, List.getElem?_eq_getElem (by omega), Option.getD_some]
      congr 1
      omega
    · rw [if_neg hc]
      unfold Covers at hc
      by_cases hi : i < M - a
      · rw [List.getElem_append_left (by simp only [List.length_append, List.length_take, List.length_drop, tab_length]; omega),
          List.getElem_append_left (by simp only [List.length_take, tab_length]; omega)]
        rw [List.getElem_take, tab_get]
      · rw [List.getElem_append_right (by simp only [List.length_append, List.length_take, List.length_drop, tab_length]; omega)]
        simp only [List.getElem_drop, List.length_append, List.length_take, List.length_drop, tab_length]
        rw [tab_get]
        congr 1
        omega

/-- The file handle agrees with the cache. -/
def Inv (w : File) : Prop := CInv w.name w.cache ∧ w.chunks = chunksOf w.cache w.name

/-- Reading a part of a chunk. -/
theorem loadRange_spec {w : File} (h : Inv w) {c : Chunk} (hc : c ∈ w.chunks) (sr : Range) : ∃ evs', (Calm w.evs → Calm evs') ∧
    (loadRange c sr w = (.ok (((dat w.name w.cache c).take sr.2).drop sr.1), { w with evs := evs' }) ∨
     (¬ Calm w.evs ∨ ¬ (sr.1 < 2 ^ 31 ∧ sr.2 < 2 ^ 31)) ∧ (loadRange c sr w = (.err, { w with evs := evs' })) ∨
     ¬ Calm w.evs ∧ loadRange c sr w = (.crash, { w with evs := evs' })) := by
  obtain ⟨evs', hq, hcases⟩ := cacheOp_cases id w
  refine ⟨evs', hq, ?_⟩
  unfold loadRange
  rcases hcases with e | ⟨hn, e | e | e⟩
  · rw [bind_ok e, bind_ok (x := self) rfl]
    rw [h.2] at hc
    dsimp only [id]
    rw [(h.1.chunk hc).2.1]
    dsimp only
    unfold toI32
    by_cases h1 : sr.1 < 2 ^ 31
    · rw [if_pos h1, bind_ok (x := lift _) rfl]
      by_cases h2 : sr.2 < 2 ^ 31
      · rw [if_pos h2, bind_ok (x := lift _) rfl]
        exact Or.inl rfl
      · rw [if_neg h2, bind_err (x := lift _) rfl]
        exact Or.inr (Or.inl ⟨Or.inr (by omega), rfl⟩)
    · rw [if_neg h1, bind_err (x := lift _) rfl]
      exact Or.inr (Or.inl ⟨Or.inr (by omega), rfl⟩)
  · rw [bind_err e]; exact Or.inr (Or.inl ⟨Or.inl hn, rfl⟩)
  · rw [bind_crash e]; exact Or.inr (Or.inr ⟨hn, rfl⟩)
  · rw [bind_crash e]; exact Or.inr (Or.inr ⟨hn, rfl⟩)

/-- All offsets are so small that no conversion of numbers fails. -/
def SmallChunks (cs : List Chunk) : Prop := ∀ c ∈ cs, c.offset + c.len < 2 ^ 31

/-- The loop of the reading functions. -/
theorem fill_spec {a b : Nat} (hab : a ≤ b) (hl : b - a < 2 ^ 63) : ∀ (cs : List Chunk) {w : File} (h : Inv w) (v : Nat → UInt8)
    (hc : ∀ c ∈ cs, c ∈ w.chunks ∧ overlap c.range (a, b) = true), ∃ evs', (Calm w.evs → Calm evs') ∧
    (fill (a, b) cs (tab a (b - a) v) w = (.ok (tab a (b - a) fun p => viewFrom (dat w.name w.cache) p (v p) cs), { w with evs := evs' }) ∨
     (¬ Calm w.evs ∨ ¬ (SmallChunks cs ∧ b < 2 ^ 31)) ∧ fill (a, b) cs (tab a (b - a) v) w = (.err, { w with evs := evs' }) ∨
     ¬ Calm w.evs ∧ fill (a, b) cs (tab a (b - a) v) w = (.crash, { w with evs := evs' }))
  | [], w, h, v, hc => ⟨w.evs, fun h => h, Or.inl rfl⟩
  | c :: cs, w, h, v, hc => by
    obtain ⟨hcm, ho⟩ := hc c (by simp)
    unfold fill
    rcases ranges_cases ho (by simp [Chunk.range]) hab hl with ⟨e, hn⟩ | e
    · rw [e, bind_err (x := lift _) rfl]
      refine ⟨w.evs, fun h => h, Or.inr (Or.inl ⟨Or.inr ?_, rfl⟩)⟩
      rintro ⟨hs, hb⟩
      have := hs c (by simp)
      dsimp only [Chunk.range] at hn
      omega
    · rw [e, bind_ok (x := lift _) rfl]
      dsimp only
      obtain ⟨evs', hq, hlr⟩ := loadRange_spec h hcm (max c.range.1 a - c.range.1, min c.range.2 b - c.range.1)
      rcases hlr with e' | ⟨hn, e'⟩ | ⟨hn, e'⟩
      · rw [bind_ok e']
        dsimp only [Chunk.range]
        have hcm' := hcm
        rw [h.2] at hcm'
        rw [copyTo_tab hab ho (h.1.chunk hcm').2.2, bind_ok (x := lift _) rfl]
        obtain ⟨evs'', hq', hr⟩ := fill_spec hab hl cs (w := { w with evs := evs' }) h
          (fun p => if Covers c p then (dat w.name w.cache c).getD (p - c.offset) 0 else v p) (fun x hx => hc x (by simp [hx]))
        refine ⟨evs'', fun h => hq' (hq h), ?_⟩
        rcases hr with e'' | ⟨hn, e''⟩ | ⟨hn, e''⟩
        · rw [e'']; exact Or.inl rfl
        · rw [e'']
          refine Or.inr (Or.inl ⟨?_, rfl⟩)
          rcases hn with hn | hn
          · exact Or.inl fun h => hn (hq h)
          · exact Or.inr fun h => hn ⟨fun x hx => h.1 x (by simp [hx]), h.2⟩
        · rw [e'']; exact Or.inr (Or.inr ⟨fun h => hn (hq h), rfl⟩)
      · rw [bind_err e']
        refine ⟨evs', hq, Or.inr (Or.inl ⟨?_, rfl⟩)⟩
        rcases hn with hn | hn
        · exact Or.inl hn
        · refine Or.inr ?_
          rintro ⟨hs, hb⟩
          have := hs c (by simp)
          dsimp only [Chunk.range] at hn
          omega
      · rw [bind_crash e']
        exact ⟨evs', hq, Or.inr (Or.inr ⟨hn, rfl⟩)⟩

theorem viewFrom_filter {dat : Chunk → Bytes} {p : Nat} {P : Chunk → Bool} : ∀ {cs : List Chunk} {v : UInt8},
    (∀ c ∈ cs, Covers c p → P c = true) → viewFrom dat p v (cs.filter P) = viewFrom dat p v cs
  | [], v, _ => rfl
  | c :: cs, v, h => by
    have ih := fun v => viewFrom_filter (dat := dat) (v := v) fun x hx => h x (List.mem_cons_of_mem c hx)
    show _ = viewFrom dat p (if Covers c p then _ else v) cs
    by_cases hP : P c = true
    · rw [List.filter_cons, if_pos hP]
      exact ih _
    · rw [List.filter_cons, if_neg hP, if_neg fun hc => hP (h c (by simp) hc)]
      exact ih _

theorem tab_congr {a n : Nat} {v v' : Nat → UInt8} (h : ∀ p, a ≤ p → p < a + n → v p = v' p) : tab a n v = tab a n v' := by
  unfold tab
  refine List.map_congr_left fun i hi => ?_
  rw [List.mem_range] at hi
  exact h _ (by omega) (by omega)

theorem tab_zero (a n : Nat) : List.replicate n (0 : UInt8) = tab a n fun _ => 0 := by
  unfold tab
  rw [List.map_const', List.length_range]

theorem fill_intersecting {a b : Nat} (hab : a ≤ b) (hl : b - a < 2 ^ 63) {w : File} (h : Inv w) : ∃ evs', (Calm w.evs → Calm evs') ∧
    (fill (a, b) (intersecting w.chunks (a, b)) (List.replicate (b - a) 0) w =
        (.ok (tab a (b - a) (byteAt w.name w.cache)), { w with evs := evs' }) ∨
     (¬ Calm w.evs ∨ ¬ (SmallChunks w.chunks ∧ b < 2 ^ 31)) ∧
        fill (a, b) (intersecting w.chunks (a, b)) (List.replicate (b - a) 0) w = (.err, { w with evs := evs' }) ∨
     ¬ Calm w.evs ∧ fill (a, b) (intersecting w.chunks (a, b)) (List.replicate (b - a) 0) w = (.crash, { w with evs := evs' })) := by
  obtain ⟨evs', hq, hr⟩ := fill_spec hab hl (intersecting w.chunks (a, b)) h (fun _ => 0) (fun c hc => by
    simpa [intersecting] using hc)
  refine ⟨evs', hq, ?_⟩
  rw [tab_zero a]
  rcases hr with e | ⟨hn, e⟩ | ⟨hn, e⟩
  · rw [e]
    refine Or.inl ?_
    congr 2
    refine tab_congr fun p h1 h2 => ?_
    unfold byteAt view
    rw [← h.2]
    refine viewFrom_filter fun c hc hcov => ?_
    rw [overlap_iff]
    dsimp only [Chunk.range]
    unfold Covers at hcov
    omega
  · rw [e]
    refine Or.inr (Or.inl ⟨?_, rfl⟩)
    rcases hn with hn | hn
    · exact Or.inl hn
    · exact Or.inr fun h => hn ⟨fun x hx => h.1 x (List.mem_filter.1 hx).1, h.2⟩
  · rw [e]; exact Or.inr (Or.inr ⟨hn, rfl⟩)

/-- What the function `read` returns. -/
theorem readRange_spec {a b : Nat} (hab : a ≤ b) {w : File} (h : Inv w) : ∃ evs', (Calm w.evs → Calm evs') ∧
    (readRange (a, b) w = (.ok (tab a (b - a) (byteAt w.name w.cache)), { w with evs := evs' }) ∨
     (¬ Calm w.evs ∨ ¬ (SmallChunks w.chunks ∧ b < 2 ^ 31)) ∧
      (readRange (a, b) w = (.err, { w with evs := evs' }) ∨ readRange (a, b) w = (.panic, { w with evs := evs' }) ∨
      readRange (a, b) w = (.crash, { w with evs := evs' }))) := by
  unfold readRange buffer
  dsimp only
  by_cases h1 : b - a < 2 ^ 32
  · rw [toUsize_ok (by omega), out_bind_ok]
    by_cases h2 : b - a < 2 ^ 31
    · rw [if_pos (by omega), bind_ok (x := lift _) rfl, bind_ok (x := self) rfl]
      have e : ((b - a : Nat) : Int).toNat = b - a := by omega
      rw [e]
      obtain ⟨evs', hq, hr⟩ := fill_intersecting hab (by omega) h
      refine ⟨evs', hq, ?_⟩
      rcases hr with e | ⟨hn, e⟩ | ⟨hn, e⟩
      · exact Or.inl e
      · exact Or.inr ⟨hn, Or.inl e⟩
      · exact Or.inr ⟨Or.inl hn, Or.inr (Or.inr e)⟩
    · rw [if_neg (by omega), bind_panic (x := lift _) rfl]
      exact ⟨w.evs, fun h => h, Or.inr ⟨Or.inr (by omega), Or.inr (Or.inl rfl)⟩⟩
  · rw [toUsize_err (by omega), out_bind_err, bind_err (x := lift _) rfl]
    exact ⟨w.evs, fun h => h, Or.inr ⟨Or.inr (by omega), Or.inl rfl⟩⟩

/-! ### Plans -/

/-- The effect of a step of a plan on the cache. -/
def effect (name : Name) (cache : Cache) : Op → Cache
  | .delete c => cache.del (c.request name)
  | .write c d => cache.set (c.request name) d
  | .rewrite c => cache.set (c.request name) (tab c.offset c.len (byteAt name cache))

/-- The effect of some steps on the cache. -/
def effects (name : Name) : Cache → List Op → Cache
  | cache, [] => cache
  | cache, op :: ops => effects name (effect name cache op) ops

/-- A step that makes sense. -/
def OpOk : Op → Prop
  | .delete c => c.Valid
  | .write c d => c.Valid ∧ d.length = c.len
  | .rewrite c => c.Valid

theorem CInv.effect {name : Name} {cache : Cache} (h : CInv name cache) {op : Op} (ho : OpOk op) : CInv name (effect name cache op) := by
  match op with
  | .delete c => exact h.del _
  | .write c d => exact h.set ho.1 ho.2
  | .rewrite c => exact h.set ho (tab_length _ _ _)

theorem CInv.effects {name : Name} : ∀ {ops : List Op} {cache : Cache} (h : CInv name cache) (ho : ∀ op ∈ ops, OpOk op),
    CInv name (effects name cache ops)
  | [], _, h, _ => h
  | op :: ops, _, h, ho => by
    show CInv name (Browser.effects name (Browser.effect name _ op) ops)
    exact CInv.effects (CInv.effect h (ho op (by simp))) fun x hx => ho x (by simp [hx])

/-- The chunks a step touches are so small that no conversion of numbers fails. -/
def OpSmall : Op → Prop
  | .rewrite c => c.offset + c.len < 2 ^ 31
  | _ => True

/-- A step has its effect on the cache, or none if it does not succeed; the handle agrees with the cache unless the page
was closed. -/
theorem execOp_spec {w : File} (h : Inv w) {op : Op} (ho : OpOk op) : ∃ cache' chunks' evs' r, (Calm w.evs → Calm evs') ∧
    execOp op w = (r, ⟨cache', w.name, chunks', evs'⟩) ∧
    (cache' = effect w.name w.cache op ∧ (r = .ok () ∧ Inv ⟨cache', w.name, chunks', evs'⟩ ∨ r = .crash ∧ ¬ Calm w.evs) ∨
     cache' = w.cache ∧ (¬ Calm w.evs ∨ ¬ (SmallChunks w.chunks ∧ OpSmall op)) ∧ r ≠ .ok () ∧
      chunks' = w.chunks) := by
  have hset : ∀ (c : Chunk) (hv : c.Valid) (d : Bytes) (hd : d.length = c.len) (w : File) (h : Inv w),
      ∃ cache' chunks' evs' r, (Calm w.evs → Calm evs') ∧
        (do writeChunk c d; update fun w => { w with chunks := insert c w.chunks } : M Unit) w = (r, ⟨cache', w.name, chunks', evs'⟩) ∧
        (cache' = w.cache.set (c.request w.name) d ∧ (r = .ok () ∧ Inv ⟨cache', w.name, chunks', evs'⟩ ∨ r = .crash ∧ ¬ Calm w.evs) ∨
         cache' = w.cache ∧ ¬ Calm w.evs ∧ r ≠ .ok () ∧ chunks' = w.chunks) := by
    intro c hv d hd w h
    obtain ⟨evs', hq, hr⟩ := cacheOp_cases (fun cache => cache.set (c.request w.name) d) w
    have hw : writeChunk c d w = cacheOp (fun cache => cache.set (c.request w.name) d) w := rfl
    rw [← hw] at hr
    rcases hr with e | ⟨hn, e | e | e⟩
    · rw [bind_ok e]
      refine ⟨_, _, _, _, hq, rfl, Or.inl ⟨rfl, Or.inl ⟨rfl, h.1.set hv hd, ?_⟩⟩⟩
      dsimp only
      rw [chunksOf_set h.1 hv, h.2]
    · rw [bind_err e]
      exact ⟨_, _, _, _, hq, rfl, Or.inr ⟨rfl, hn, by simp, rfl⟩⟩
    · rw [bind_crash e]
      exact ⟨_, _, _, _, hq, rfl, Or.inl ⟨rfl, Or.inr ⟨rfl, hn⟩⟩⟩
    · rw [bind_crash e]
      exact ⟨_, _, _, _, hq, rfl, Or.inr ⟨rfl, hn, by simp, rfl⟩⟩
  match op with
  | .delete c =>
    obtain ⟨evs', hq, hr⟩ := cacheOp_cases (fun cache => cache.del (c.request w.name)) w
    have hw : deleteChunk c w = cacheOp (fun cache => cache.del (c.request w.name)) w := rfl
    rw [← hw] at hr
    unfold execOp
    dsimp only
    rcases hr with e | ⟨hn, e | e | e⟩
    · rw [bind_ok e]
      refine ⟨_, _, _, _, hq, rfl, Or.inl ⟨rfl, Or.inl ⟨rfl, h.1.del _, ?_⟩⟩⟩
      dsimp only
      rw [chunksOf_del h.1 ho, h.2]
    · rw [bind_err e]
      exact ⟨_, _, _, _, hq, rfl, Or.inr ⟨rfl, Or.inl hn, by simp, rfl⟩⟩
    · rw [bind_crash e]
      exact ⟨_, _, _, _, hq, rfl, Or.inl ⟨rfl, Or.inr ⟨rfl, hn⟩⟩⟩
    · rw [bind_crash e]
      exact ⟨_, _, _, _, hq, rfl, Or.inr ⟨rfl, Or.inl hn, by simp, rfl⟩⟩
  | .write c d =>
    obtain ⟨cache', chunks', evs', r, hq, e, hr⟩ := hset c ho.1 d ho.2 w h
    refine ⟨cache', chunks', evs', r, hq, e, ?_⟩
    rcases hr with hr | ⟨h1, h2, h3⟩
    · exact Or.inl hr
    · exact Or.inr ⟨h1, Or.inl h2, h3⟩
  | .rewrite c =>
    have ho' : c.Valid := ho
    unfold execOp
    dsimp only
    obtain ⟨evs', hq, hr⟩ := readRange_spec (a := c.range.1) (b := c.range.2) (by simp [Chunk.range]) h
    rcases hr with e | ⟨hn, e⟩
    · rw [bind_ok e]
      have el : c.range.2 - c.range.1 = c.len := by simp [Chunk.range]
      obtain ⟨cache', chunks', evs'', r, hq', e', hr⟩ := hset c ho' _ ((tab_length c.range.1 (c.range.2 - c.range.1) (byteAt w.name w.cache)).trans el) { w with evs := evs' } h
      refine ⟨cache', chunks', evs'', r, fun h => hq' (hq h), e', ?_⟩
      rcases hr with ⟨h1, hr⟩ | ⟨h1, h2, h3⟩
      · refine Or.inl ⟨?_, ?_⟩
        · rw [h1, el]; rfl
        · rcases hr with hr | ⟨hr, hn⟩
          · exact Or.inl hr
          · exact Or.inr ⟨hr, fun h => hn (hq h)⟩
      · exact Or.inr ⟨h1, Or.inl fun h => h2 (hq h), h3⟩
    · have hn' : ¬ Calm w.evs ∨ ¬ (SmallChunks w.chunks ∧ OpSmall (.rewrite c)) := hn
      rcases e with e | e | e
      · rw [bind_err e]
        exact ⟨_, _, _, _, hq, rfl, Or.inr ⟨rfl, hn', by simp, rfl⟩⟩
      · rw [bind_panic e]
        exact ⟨_, _, _, _, hq, rfl, Or.inr ⟨rfl, hn', by simp, rfl⟩⟩
      · rw [bind_crash e]
        exact ⟨_, _, _, _, hq, rfl, Or.inr ⟨rfl, hn', by simp, rfl⟩⟩

/-- A plan that is interrupted anywhere has done its first steps; the handle agrees with the cache unless the page was closed. -/
theorem exec_spec : ∀ (ops : List Op) {w : File} (h : Inv w) (ho : ∀ op ∈ ops, OpOk op), ∃ cache' chunks' evs' r k,
    (Calm w.evs → Calm evs') ∧ exec ops w = (r, ⟨cache', w.name, chunks', evs'⟩) ∧ k ≤ ops.length ∧
    cache' = effects w.name w.cache (ops.take k) ∧ (r = .ok () → k = ops.length) ∧
    (r ≠ .crash → Inv ⟨cache', w.name, chunks', evs'⟩)
  | [], w, h, ho => ⟨w.cache, w.chunks, w.evs, .ok (), 0, fun h => h, rfl, by simp, rfl, fun _ => rfl, fun _ => h⟩
  | op :: ops, w, h, ho => by
    obtain ⟨cache', chunks', evs', r, hq, e, hr⟩ := execOp_spec h (ho op (by simp))
    unfold exec
    rcases hr with ⟨h1, ⟨rfl, hi⟩ | ⟨rfl, hn⟩⟩ | ⟨h1, hn, hne, h2⟩
    · rw [bind_ok e]
      obtain ⟨c2, ch2, e2, r2, k, hq2, ee, hk, hc, h3, h4⟩ := exec_spec ops hi fun x hx => ho x (by simp [hx])
      refine ⟨c2, ch2, e2, r2, k + 1, fun h => hq2 (hq h), ee, by simpa using hk, ?_, fun hr => by simp [h3 hr], h4⟩
      rw [hc, h1]; rfl
    · rw [bind_crash e]
      refine ⟨_, _, _, _, 1, hq, rfl, by simp, ?_, by simp, by simp⟩
      rw [h1]; simp [effects]
    · refine ⟨cache', chunks', evs', r, 0, hq, ?_, by simp, ?_, fun h => absurd h hne, fun _ => ?_⟩
      · match r with
        | .ok () => exact absurd rfl hne
        | .err => rw [bind_err e]
        | .panic => rw [bind_panic e]
        | .crash => rw [bind_crash e]
      · rw [h1]; rfl
      · subst h1; subst h2; exact h

/-- A plan succeeds if nothing bad happens and all numbers are small. -/
theorem exec_succeeds : ∀ (ops : List Op) {w : File} (h : Inv w) (ho : ∀ op ∈ ops, OpOk op) (hq : Calm w.evs)
    (hs : SmallChunks w.chunks) (hs' : ∀ op ∈ ops, OpSmall op ∧ ∀ c d, op = .write c d → c.offset + c.len < 2 ^ 31),
    ∃ w', exec ops w = (.ok (), w') ∧ Calm w'.evs ∧ SmallChunks w'.chunks
  | [], w, h, ho, hq, hs, hs' => ⟨w, rfl, hq, hs⟩
  | op :: ops, w, h, ho, hq, hs, hs' => by
    obtain ⟨cache', chunks', evs', r, hq', e, hr⟩ := execOp_spec h (ho op (by simp))
    unfold exec
    rcases hr with ⟨h1, ⟨rfl, hi⟩ | ⟨rfl, hn⟩⟩ | ⟨h1, hn, hne, h2⟩
    · rw [bind_ok e]
      refine exec_succeeds ops hi (fun x hx => ho x (by simp [hx])) (hq' hq) ?_ fun x hx => hs' x (by simp [hx])
      intro c hc
      have hc' : c ∈ chunksOf cache' w.name := by rw [← hi.2]; exact hc
      rw [h1] at hc'
      have hop := ho op (by simp)
      cases op with
      | delete x =>
        have hc' : c ∈ chunksOf (w.cache.del (x.request w.name)) w.name := hc'
        rw [chunksOf_del h.1 hop, ← h.2] at hc'
        exact hs c (mem_remove.1 hc').1
      | write x d =>
        have hc' : c ∈ chunksOf (w.cache.set (x.request w.name) d) w.name := hc'
        rw [chunksOf_set h.1 hop.1, ← h.2] at hc'
        rcases mem_insert.1 hc' with rfl | hc'
        · exact (hs' _ (by simp)).2 c d rfl
        · exact hs c hc'
      | rewrite x =>
        have hc' : c ∈ chunksOf (w.cache.set (x.request w.name) _) w.name := hc'
        rw [chunksOf_set h.1 hop, ← h.2] at hc'
        rcases mem_insert.1 hc' with rfl | hc'
        · exact (hs' (.rewrite c) (by simp)).1
        · exact hs c hc'
    · exact absurd hq hn
    · rcases hn with hn | hn
      · exact absurd hq hn
      · exact absurd ⟨hs, (hs' op (by simp)).1⟩ hn

end Radix.Browser
