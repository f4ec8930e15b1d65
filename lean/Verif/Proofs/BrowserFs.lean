import Verif.Proofs.BrowserHistory
import Verif.Spec.Fs

/-
Helper lemmas: the calls on one file neither see nor change what is in the cache for other files; the whole file system behaves towards
one file as that file alone.
-/

set_option linter.unusedVariables false

namespace Radix.Browser

open Radix.Spec

/-! ### The entries of one file -/

/-- The entries of a cache whose URL has the path of the file. -/
def own (f : Name) (cache : Cache) : Cache := cache.filter fun e => e.1.takeWhile (· ≠ '?') = '/' :: f

/-- No question mark. -/
def NoQ (f : Name) : Prop := ∀ x ∈ f, x ≠ '?'

theorem path_request {f : Name} (hf : NoQ f) (c : Chunk) : (c.request f).takeWhile (· ≠ '?') = '/' :: f := by
  have := (takeWhile_stop (P := fun x : Char => decide (x ≠ '?')) (a := '/' :: f) (x := '?') c.query (by
    intro x hx
    rcases List.mem_cons.1 hx with h | h
    · subst h; decide
    · simpa using hf x h) (by decide)).1
  exact this

theorem path_name {f : Name} (hf : NoQ f) : ('/' :: f).takeWhile (· ≠ '?') = '/' :: f := by
  refine takeWhile_all fun x hx => ?_
  rcases List.mem_cons.1 hx with h | h
  · subst h; decide
  · simpa using hf x h

theorem own_del_self {f : Name} (cache : Cache) (k : List Char) : own f (cache.del k) = (own f cache).del k := by
  unfold own Cache.del
  rw [List.filter_filter, List.filter_filter]
  refine List.filter_congr fun e _ => ?_
  rw [Bool.and_comm]

theorem own_set_self {f : Name} (hf : NoQ f) (cache : Cache) (c : Chunk) (d : Bytes) :
    own f (cache.set (c.request f) d) = (own f cache).set (c.request f) d := by
  unfold Cache.set
  rw [← own_del_self]
  unfold own
  rw [List.filter_append]
  congr 1
  rw [List.filter_cons_of_pos (by simpa using path_request hf c)]
  rfl

theorem own_del_other {f g : Name} (hg : NoQ g) (hne : g ≠ f) (cache : Cache) (c : Chunk) : own f (cache.del (c.request g)) = own f cache := by
  unfold own Cache.del
  rw [List.filter_filter]
  refine List.filter_congr fun e _ => ?_
  by_cases hk : e.1 = c.request g
  · rw [hk, path_request hg]; simp [hne]
  · simp [hk]

theorem own_set_other {f g : Name} (hg : NoQ g) (hne : g ≠ f) (cache : Cache) (c : Chunk) (d : Bytes) :
    own f (cache.set (c.request g) d) = own f cache := by
  have h := own_del_other hg hne cache c
  unfold Cache.set
  unfold own at h ⊢
  rw [List.filter_append, h, List.filter_cons_of_neg (by rw [path_request hg]; simp [hne])]
  simp

theorem get_own {f : Name} (hf : NoQ f) (cache : Cache) (c : Chunk) : (own f cache).get (c.request f) = cache.get (c.request f) := by
  unfold own Cache.get
  congr 1
  induction cache with
  | nil => rfl
  | cons e es ih =>
    by_cases hk : e.1 = c.request f
    · rw [List.filter_cons_of_pos (by rw [hk]; simpa using path_request hf c), List.find?_cons_of_pos (by simpa using hk),
        List.find?_cons_of_pos (by simpa using hk)]
    · rw [List.find?_cons_of_neg (by simpa using hk)]
      by_cases hp : e.1.takeWhile (· ≠ '?') = '/' :: f
      · rw [List.filter_cons_of_pos (by simpa using hp), List.find?_cons_of_neg (by simpa using hk)]; exact ih
      · rw [List.filter_cons_of_neg (by simpa using hp)]; exact ih

theorem filterMap_ext {α β : Type} {f g : α → Option β} : ∀ {l : List α}, (∀ x ∈ l, f x = g x) → l.filterMap f = l.filterMap g
  | [], _ => rfl
  | x :: xs, h => by
    rw [List.filterMap_cons, List.filterMap_cons, h x (by simp), filterMap_ext fun y hy => h y (by simp [hy])]

theorem chunksOf_own (f : Name) (cache : Cache) : chunksOf (own f cache) f = chunksOf cache f := by
  unfold chunksOf own
  congr 1
  rw [List.filterMap_filter]
  refine filterMap_ext fun e _ => ?_
  unfold parseRequest
  dsimp only
  generalize e.1.takeWhile (· ≠ '?') = q
  by_cases hp : q = '/' :: f
  · simp only [hp, decide_true, if_true]
  · simp only [hp, decide_false, if_false, Bool.false_eq_true]
    split <;> rfl

theorem own_delPath_self {f : Name} (hf : NoQ f) (cache : Cache) : own f (cache.delPath f) = [] := by
  unfold own Cache.delPath
  rw [path_name hf, List.filter_filter, List.filter_eq_nil_iff]
  intro e _
  simp

theorem own_delPath_other {f g : Name} (hg : NoQ g) (hne : g ≠ f) (cache : Cache) : own f (cache.delPath g) = own f cache := by
  unfold own Cache.delPath
  rw [path_name hg, List.filter_filter]
  refine List.filter_congr fun e _ => ?_
  by_cases hp : e.1.takeWhile (· ≠ '?') = '/' :: f
  · rw [hp]; simp [Ne.symm hne]
  · simp only [hp, decide_false, Bool.false_and]

theorem plain_noQ {f : Name} (h : Plain f) : NoQ f := h.ne

/-! ### Calls on a file see only its entries -/

/-- The same, up to entries of other files. -/
structure Same (w w' : File) : Prop where
  own : own w.name w.cache = own w.name w'.cache
  name : w'.name = w.name
  chunks : w'.chunks = w.chunks
  evs : w'.evs = w.evs
  noQ : NoQ w.name

/-- The two computations do the same. -/
def Rel {α : Type} (x y : M α) : Prop := ∀ w w', Same w w' → (x w).1 = (y w').1 ∧ Same (x w).2 (y w').2

theorem Rel.bind {α β : Type} {x y : M α} {f g : α → M β} (h1 : Rel x y) (h2 : ∀ a, Rel (f a) (g a)) : Rel (x >>= f) (y >>= g) := by
  intro w w' hs
  obtain ⟨e, hs1⟩ := h1 w w' hs
  match hx : x w, hy : y w' with
  | (r, w1), (r', w1') =>
    rw [hx, hy] at e hs1
    have e : r = r' := e
    subst e
    cases r with
    | ok a => rw [bind_ok hx, bind_ok hy]; exact h2 a w1 w1' hs1
    | err => rw [bind_err hx, bind_err hy]; exact ⟨rfl, hs1⟩
    | panic => rw [bind_panic hx, bind_panic hy]; exact ⟨rfl, hs1⟩
    | crash => rw [bind_crash hx, bind_crash hy]; exact ⟨rfl, hs1⟩

theorem rel_pure {α : Type} (a : α) : Rel (pure a : M α) (pure a) := fun _ _ h => ⟨rfl, h⟩

theorem rel_lift {α : Type} (x : Out α) : Rel (lift x) (lift x) := fun _ _ h => ⟨rfl, h⟩

theorem rel_self {β : Type} {f g : File → M β} (h : ∀ w w', Same w w' → Rel (f w) (g w')) : Rel (self >>= f) (self >>= g) := by
  intro w w' hs
  rw [bind_ok (x := self) (f := f) (w := w) (w' := w) rfl, bind_ok (x := self) (f := g) (w := w') (w' := w') rfl]
  exact h w w' hs w w' hs

theorem rel_nextEv : Rel nextEv nextEv := by
  intro w w' hs
  unfold nextEv
  rw [hs.evs]
  match hw : w.evs with
  | [] => exact ⟨rfl, hs⟩
  | e :: evs => exact ⟨rfl, hs.own, hs.name, hs.chunks, rfl, hs.noQ⟩

/-- Operations on the cache with the same effect on the entries of the file. -/
theorem rel_cacheOp {f g : Cache → Cache} (n : Name) (h : ∀ c c', own n c = own n c' → own n (f c) = own n (g c')) :
    ∀ w w', w.name = n → Same w w' → (cacheOp f w).1 = (cacheOp g w').1 ∧ Same (cacheOp f w).2 (cacheOp g w').2 := by
  intro w w' hn hs
  have hu : ∀ w w' : File, w.name = n → Same w w' → Same { w with cache := f w.cache } { w' with cache := g w'.cache } :=
    fun w w' hn hs => ⟨by subst hn; exact h _ _ hs.own, hs.name, hs.chunks, hs.evs, hs.noQ⟩
  unfold cacheOp
  have hne := rel_nextEv w w' hs
  match hx : nextEv w, hy : nextEv w' with
  | (r, w1), (r', w1') =>
    rw [hx, hy] at hne
    obtain ⟨e, hs1⟩ := hne
    have e : r = r' := e
    subst e
    have hn1 : w1.name = n := by
      have : (nextEv w).2.name = w.name := by unfold nextEv; split <;> rfl
      rw [hx] at this
      rw [← hn]; exact this
    cases r with
    | err => rw [bind_err hx, bind_err hy]; exact ⟨rfl, hs1⟩
    | panic => rw [bind_panic hx, bind_panic hy]; exact ⟨rfl, hs1⟩
    | crash => rw [bind_crash hx, bind_crash hy]; exact ⟨rfl, hs1⟩
    | ok ev =>
      rw [bind_ok hx, bind_ok hy]
      cases ev with
      | ok => exact ⟨rfl, hu _ _ hn1 hs1⟩
      | fail => exact ⟨rfl, hs1⟩
      | crash done =>
        cases done with
        | true => exact ⟨rfl, hu _ _ hn1 hs1⟩
        | false => exact ⟨rfl, hs1⟩

theorem rel_writeChunk (c : Chunk) (d : Bytes) : Rel (writeChunk c d) (writeChunk c d) := by
  intro w w' hs
  unfold writeChunk
  rw [bind_ok (x := self) (w := w) (w' := w) rfl, bind_ok (x := self) (w := w') (w' := w') rfl, hs.name]
  exact rel_cacheOp w.name (fun a b h => by rw [own_set_self hs.noQ, own_set_self hs.noQ, h]) w w' rfl hs

theorem rel_deleteChunk (c : Chunk) : Rel (deleteChunk c) (deleteChunk c) := by
  intro w w' hs
  unfold deleteChunk
  rw [bind_ok (x := self) (w := w) (w' := w) rfl, bind_ok (x := self) (w := w') (w' := w') rfl, hs.name]
  exact rel_cacheOp w.name (fun a b h => by rw [own_del_self, own_del_self, h]) w w' rfl hs

theorem rel_loadRange (c : Chunk) (r : Range) : Rel (loadRange c r) (loadRange c r) := by
  unfold loadRange
  refine Rel.bind (fun w w' hs => rel_cacheOp w.name (fun a b h => h) w w' rfl hs) fun _ => ?_
  refine rel_self fun w w' hs => ?_
  have e : w'.cache.get (c.request w'.name) = w.cache.get (c.request w.name) := by
    rw [hs.name, ← get_own hs.noQ w'.cache, ← hs.own, get_own hs.noQ]
  rw [e]
  split
  · exact rel_lift _
  · exact (rel_lift _).bind fun _ => (rel_lift _).bind fun _ => rel_pure _

theorem rel_fill (range : Range) : ∀ (cs : List Chunk) (res : Bytes), Rel (fill range cs res) (fill range cs res)
  | [], res => rel_pure _
  | c :: cs, res => (rel_lift _).bind fun _ => (rel_loadRange _ _).bind fun _ => (rel_lift _).bind fun _ => rel_fill range cs _

theorem rel_readRange (range : Range) : Rel (readRange range) (readRange range) :=
  (rel_lift _).bind fun _ => rel_self fun w w' hs => by rw [hs.chunks]; exact rel_fill _ _ _

theorem rel_chunks (g : List Chunk → List Chunk) : Rel (update fun w => { w with chunks := g w.chunks }) (update fun w => { w with chunks := g w.chunks }) :=
  fun w w' hs => ⟨rfl, hs.own, hs.name, by show g w'.chunks = g w.chunks; rw [hs.chunks], hs.evs, hs.noQ⟩

theorem rel_execOp (op : Op) : Rel (execOp op) (execOp op) := by
  cases op with
  | delete c => exact (rel_deleteChunk c).bind fun _ => rel_chunks _
  | write c d => exact (rel_writeChunk c d).bind fun _ => rel_chunks _
  | rewrite c => exact (rel_readRange _).bind fun _ => (rel_writeChunk c _).bind fun _ => rel_chunks _

theorem rel_exec : ∀ ops : List Op, Rel (exec ops) (exec ops)
  | [] => rel_pure _
  | op :: ops => (rel_execOp op).bind fun _ => rel_exec ops

theorem prev_same {w w' : File} (hs : Same w w') : prev w' = prev w := by unfold prev; rw [hs.chunks]

theorem rel_write (o : Nat) (d : Bytes) : Rel (write o d) (write o d) :=
  rel_self fun w w' hs => by rw [hs.chunks]; exact (rel_lift _).bind fun _ => rel_exec _

theorem rel_truncate (o : Nat) : Rel (truncate o) (truncate o) :=
  rel_self fun w w' hs => by rw [hs.chunks]; exact (rel_lift _).bind fun _ => rel_exec _

theorem rel_append (d : Bytes) : Rel (append d) (append d) :=
  rel_self fun w w' hs => by
    rw [prev_same hs]
    exact rel_self fun w1 w1' hs1 => by
      rw [hs1.chunks]
      exact (rel_lift _).bind fun _ => (rel_exec _).bind fun _ => rel_pure _

theorem rel_appendPrefixed (d : Bytes) : Rel (appendPrefixed d) (appendPrefixed d) := by
  unfold appendPrefixed
  split
  · exact rel_append _
  · exact rel_lift _

theorem rel_read (range : Range) : Rel (read range) (read range) :=
  (rel_lift _).bind fun _ => rel_self fun w w' hs => by
    rw [prev_same hs]
    exact (rel_lift _).bind fun _ => (rel_lift _).bind fun _ => rel_self fun w w' hs => by rw [hs.chunks]; exact rel_fill _ _ _

theorem rel_loadChunks (range : Range) (cs : List Chunk) : Rel (loadChunks range cs) (loadChunks range cs) :=
  (rel_lift _).bind fun _ => rel_fill _ _ _

theorem rel_ensure (b : Bool) : Rel (ensure b) (ensure b) := rel_lift _

theorem rel_loadPrefixed (start : Nat) : Rel (loadPrefixed start) (loadPrefixed start) := by
  unfold loadPrefixed
  dsimp only
  repeat' with_reducible first
    | exact rel_pure _
    | exact rel_lift _
    | exact rel_ensure _
    | exact rel_loadChunks _ _
    | (refine rel_self fun w w' hs => ?_; rw [hs.chunks])
    | refine Rel.bind ?_ fun _ => ?_
    | split

/-- The same worlds, up to entries of other files. -/
structure SameW (w w' : World) : Prop where
  own : own w.name w.cache = own w.name w'.cache
  name : w'.name = w.name
  handle : w'.handle = w.handle
  noQ : NoQ w.name

theorem same_after {α : Type} {r r' : Out α × File} (h : r.1 = r'.1) (hs : Same r.2 r'.2) : SameW (after r) (after r') := by
  obtain ⟨o, w⟩ := r
  obtain ⟨o', w'⟩ := r'
  have h : o = o' := h
  subst h
  cases o <;> exact ⟨hs.own, hs.name, by first | rfl | exact congrArg some hs.chunks, hs.noQ⟩

theorem step_same {w w' : World} (hs : SameW w w') (c : Call) : (step w c).1 = (step w' c).1 ∧ SameW (step w c).2 (step w' c).2 := by
  have key : ∀ {α : Type} {x : M α} (hx : Rel x x) (cs : List Chunk) (evs : List Ev),
      (x ⟨w.cache, w.name, cs, evs⟩).1 = (x ⟨w'.cache, w'.name, cs, evs⟩).1 ∧
        SameW (after (x ⟨w.cache, w.name, cs, evs⟩)) (after (x ⟨w'.cache, w'.name, cs, evs⟩)) := by
    intro α x hx cs evs
    obtain ⟨h1, h2⟩ := hx ⟨w.cache, w.name, cs, evs⟩ ⟨w'.cache, w'.name, cs, evs⟩ ⟨hs.own, hs.name, rfl, rfl, hs.noQ⟩
    exact ⟨h1, same_after h1 h2⟩
  have hc : (openFile w'.cache w'.name).chunks = (openFile w.cache w.name).chunks := by
    show chunksOf w'.cache w'.name = chunksOf w.cache w.name
    rw [hs.name, ← chunksOf_own _ w'.cache, ← hs.own, chunksOf_own]
  cases c with
  | reopen => exact ⟨rfl, hs.own, hs.name, by show some _ = some _; rw [hc], hs.noQ⟩
  | length =>
    unfold step; dsimp only; rw [hs.handle]
    cases w.handle with
    | none => exact ⟨rfl, hs⟩
    | some cs => exact ⟨rfl, hs⟩
  | write o d evs =>
    unfold step; dsimp only; rw [hs.handle]
    cases hh : w.handle with
    | none => exact ⟨rfl, hs⟩
    | some cs => obtain ⟨h1, h2⟩ := key (rel_write o d) cs evs; exact ⟨by dsimp only; rw [h1], h2⟩
  | truncate n evs =>
    unfold step; dsimp only; rw [hs.handle]
    cases hh : w.handle with
    | none => exact ⟨rfl, hs⟩
    | some cs => obtain ⟨h1, h2⟩ := key (rel_truncate n) cs evs; exact ⟨by dsimp only; rw [h1], h2⟩
  | read a b evs =>
    unfold step; dsimp only; rw [hs.handle]
    cases hh : w.handle with
    | none => exact ⟨rfl, hs⟩
    | some cs => obtain ⟨h1, h2⟩ := key (rel_read (a, b)) cs evs; dsimp only; exact ⟨congrArg Seen.bytes h1, h2⟩
  | put d evs =>
    unfold step; dsimp only; rw [hs.handle]
    cases hh : w.handle with
    | none => exact ⟨rfl, hs⟩
    | some cs => obtain ⟨h1, h2⟩ := key (rel_appendPrefixed d) cs evs; dsimp only; exact ⟨by rw [h1], h2⟩
  | get id evs =>
    unfold step; dsimp only; rw [hs.handle]
    cases hh : w.handle with
    | none => exact ⟨rfl, hs⟩
    | some cs =>
      dsimp only
      split
      · obtain ⟨h1, h2⟩ := key (rel_loadPrefixed (ofBE id)) cs evs; exact ⟨congrArg Seen.bytes h1, h2⟩
      · exact ⟨rfl, hs⟩

/-! ### Calls on a file change only its entries -/

/-- The entries of `f` stay. -/
def Leaves {α : Type} (f : Name) (x : M α) : Prop := ∀ w, NoQ w.name → w.name ≠ f → own f (x w).2.cache = own f w.cache ∧ (x w).2.name = w.name

theorem Leaves.bind {α β : Type} {f : Name} {x : M α} {g : α → M β} (h1 : Leaves f x) (h2 : ∀ a, Leaves f (g a)) : Leaves f (x >>= g) := by
  intro w hq hn
  obtain ⟨e1, e2⟩ := h1 w hq hn
  match hx : x w with
  | (.ok a, w1) =>
    rw [bind_ok hx]
    rw [hx] at e1 e2
    have e2 : w1.name = w.name := e2
    have e1 : own f w1.cache = own f w.cache := e1
    obtain ⟨e3, e4⟩ := h2 a w1 (e2 ▸ hq) (e2 ▸ hn)
    exact ⟨e3.trans e1, e4.trans e2⟩
  | (.err, w1) => rw [bind_err hx]; rw [hx] at e1 e2; exact ⟨e1, e2⟩
  | (.panic, w1) => rw [bind_panic hx]; rw [hx] at e1 e2; exact ⟨e1, e2⟩
  | (.crash, w1) => rw [bind_crash hx]; rw [hx] at e1 e2; exact ⟨e1, e2⟩

theorem Reader.leaves {α : Type} {x : M α} (h : Reader x) (f : Name) : Leaves f x := by
  intro w hq hn
  obtain ⟨evs, e⟩ := h w
  rw [e]
  exact ⟨rfl, rfl⟩

theorem leaves_cacheOp {f : Name} {g : Cache → Cache} {w : File} (h : ∀ c, own f (g c) = own f c) :
    own f (cacheOp g w).2.cache = own f w.cache ∧ (cacheOp g w).2.name = w.name := by
  obtain ⟨evs', -, h'⟩ := cacheOp_cases g w
  rcases h' with h' | ⟨-, h' | h' | h'⟩ <;> rw [h'] <;> first | exact ⟨rfl, rfl⟩ | exact ⟨h _, rfl⟩

theorem leaves_writeChunk (f : Name) (c : Chunk) (d : Bytes) : Leaves f (writeChunk c d) := by
  intro w hq hn
  unfold writeChunk
  rw [bind_ok (x := self) (w := w) (w' := w) rfl]
  exact leaves_cacheOp fun a => own_set_other hq hn a c d

theorem leaves_deleteChunk (f : Name) (c : Chunk) : Leaves f (deleteChunk c) := by
  intro w hq hn
  unfold deleteChunk
  rw [bind_ok (x := self) (w := w) (w' := w) rfl]
  exact leaves_cacheOp fun a => own_del_other hq hn a c

theorem leaves_chunks (f : Name) (g : List Chunk → List Chunk) : Leaves f (update fun w => { w with chunks := g w.chunks }) :=
  fun w hq hn => ⟨rfl, rfl⟩

theorem reader_readRange (range : Range) : Reader (readRange range) :=
  (reader_lift _).bind fun _ => reader_self.bind fun _ => reader_fill _ _ _

theorem leaves_exec (f : Name) : ∀ ops : List Op, Leaves f (exec ops)
  | [] => (reader_pure _).leaves f
  | op :: ops => by
    refine Leaves.bind ?_ fun _ => leaves_exec f ops
    cases op with
    | delete c => exact (leaves_deleteChunk f c).bind fun _ => leaves_chunks f _
    | write c d => exact (leaves_writeChunk f c d).bind fun _ => leaves_chunks f _
    | rewrite c => exact ((reader_readRange _).leaves f).bind fun _ => (leaves_writeChunk f c _).bind fun _ => leaves_chunks f _

theorem leaves_write (f : Name) (o : Nat) (d : Bytes) : Leaves f (write o d) :=
  (reader_self.leaves f).bind fun _ => ((reader_lift _).leaves f).bind fun _ => leaves_exec f _

theorem leaves_truncate (f : Name) (o : Nat) : Leaves f (truncate o) :=
  (reader_self.leaves f).bind fun _ => ((reader_lift _).leaves f).bind fun _ => leaves_exec f _

theorem leaves_appendPrefixed (f : Name) (d : Bytes) : Leaves f (appendPrefixed d) := by
  unfold appendPrefixed
  split
  · exact (reader_self.leaves f).bind fun _ => (reader_self.leaves f).bind fun _ => ((reader_lift _).leaves f).bind fun _ =>
      (leaves_exec f _).bind fun _ => (reader_pure _).leaves f
  · exact (reader_lift _).leaves f

theorem after_cache {α : Type} (r : Out α × File) : (after r).cache = r.2.cache ∧ (after r).name = r.2.name := by
  obtain ⟨o, w⟩ := r
  cases o <;> exact ⟨rfl, rfl⟩

theorem step_leaves {f : Name} {w : World} (hq : NoQ w.name) (hn : w.name ≠ f) (c : Call) : own f (step w c).2.cache = own f w.cache := by
  have key : ∀ {α : Type} {x : M α} (hx : Leaves f x) (cs : List Chunk) (evs : List Ev),
      own f (after (x ⟨w.cache, w.name, cs, evs⟩)).cache = own f w.cache := by
    intro α x hx cs evs
    rw [(after_cache _).1]
    exact (hx ⟨w.cache, w.name, cs, evs⟩ hq hn).1
  cases c with
  | reopen => rfl
  | length => unfold step; dsimp only; split <;> rfl
  | write o d evs => unfold step; dsimp only; split; · rfl
                     · exact key (leaves_write f o d) _ _
  | truncate n evs => unfold step; dsimp only; split; · rfl
                      · exact key (leaves_truncate f n) _ _
  | read a b evs => unfold step; dsimp only; split; · rfl
                    · dsimp only; exact key ((reader_read (a, b)).leaves f) _ _
  | put d evs => unfold step; dsimp only; split; · rfl
                 · dsimp only; exact key (leaves_appendPrefixed f d) _ _
  | get id evs =>
    unfold step; dsimp only; split
    · rfl
    · split
      · exact key ((reader_loadPrefixed (ofBE id)).leaves f) _ _
      · rfl

theorem leaves_name {α : Type} {x : M α} (h : ∀ f, Leaves f x) (w : File) (hq : NoQ w.name) : (x w).2.name = w.name :=
  (h ('x' :: w.name) w hq (by intro e; have := congrArg List.length e; simp at this)).2

theorem step_name (w : World) (hq : NoQ w.name) (c : Call) : (step w c).2.name = w.name := by
  have key : ∀ {α : Type} {x : M α} (hx : ∀ f, Leaves f x) (cs : List Chunk) (evs : List Ev),
      (after (x ⟨w.cache, w.name, cs, evs⟩)).name = w.name := by
    intro α x hx cs evs
    rw [(after_cache _).2]
    exact leaves_name hx ⟨w.cache, w.name, cs, evs⟩ hq
  cases c with
  | reopen => rfl
  | length => unfold step; dsimp only; split <;> rfl
  | write o d evs => unfold step; dsimp only; split; · rfl
                     · exact key (fun f => leaves_write f o d) _ _
  | truncate n evs => unfold step; dsimp only; split; · rfl
                      · exact key (fun f => leaves_truncate f n) _ _
  | read a b evs => unfold step; dsimp only; split; · rfl
                    · dsimp only; exact key (fun f => (reader_read (a, b)).leaves f) _ _
  | put d evs => unfold step; dsimp only; split; · rfl
                 · dsimp only; exact key (fun f => leaves_appendPrefixed f d) _ _
  | get id evs =>
    unfold step; dsimp only; split
    · rfl
    · split
      · exact key (fun f => (reader_loadPrefixed (ofBE id)).leaves f) _ _
      · rfl

end Radix.Browser
