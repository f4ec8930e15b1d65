import Verif.Props.Persist
import Verif.Proofs.Shared

/-
Property C77: several clients work with one store at the same time.

`shared S st` (Verif/Stored/Shared.lean) is the store `S` as one client sees it while others write to it; a `Sharing` is
what the others do, and the log of all writes. `Att (shared S st) …` is a history of calls of this client, with writes
of others before, between and during the calls.
-/

set_option linter.unusedVariables false

namespace Radix
open Node

section
variable {σ ε : Type} {S : BlobStore σ ε}

theorem sharing_reads (L : Lawful S) {st : σ} {s : Sharing}
    (h : ∀ st', Mono L (world S st s.log) st' → ReadsSucceed L st') : ReadsSucceed (sharedLawful L st) s := by
  intro i d hh
  have hm : Mono L (world S st s.log) (world S st (s.log ++ others (s.during i))) := by
    rw [world_append]; exact world_mono L _ _
  exact h _ hm _ _ (hm _ _ hh)

/-- **C77**. A tree that is in use before others start to write has the same contents for the calls during which they
write: lookups and `try_detached` give what they give without the others, or an error if a read fails. -/
theorem C77_reads {L : Lawful S} {long : Bool} {st : σ} {a : SNode} {m : Spec.Map} (h : Att S L long st a m)
    (before : List (List Bytes)) (during : Bytes → List Bytes) :
    Snapshot (sharedLawful L st) (Sharing.start before during) a m := by
  obtain ⟨t, ho, hs, hr, hd⟩ := att_stands h
  have hr' : Rep (sharedLawful L st) long (Sharing.start before during) a t := 
    rep_other (L := L) (st := st) (M := sharedLawful L st) (st' := Sharing.start before during) (fun i d e => e) _ _ hr
  refine ⟨fun k => ?_, fun u hu hm => ?_⟩
  · rw [← hd k, ← get_eq_den _ _ ho]
    exact agrees_bind (fun n => getS_fuel a k n) (getS_rep ho hr' (Nat.le_refl _) k) fun x hx => loadOptV_rep hx
  · have := holdsTree_of_rep hr'
    rwa [shape_unique hs (proper_shape hu) ho (reach_ord hu) fun k => by
      rw [hd, ← hm, get_eq_den _ _ (reach_ord hu)]] at this

/-- **C77**: and no read fails if the store never fails to read what it has. -/
theorem C77_no_error {L : Lawful S} {st : σ} (hr : ∀ st', Mono L st st' → ReadsSucceed L st')
    (before : List (List Bytes)) (during : Bytes → List Bytes) :
    ReadsSucceed (sharedLawful L st) (Sharing.start before during) := sharing_reads L hr

/-- **C77**. Whatever the client has done while others were writing, and whatever they write while `try_reattach` is
running: if it returns an id, then `try_load` of this id gives the contents, for every client and at any later time. -/
theorem C77_snapshot {L : Lawful S} {long : Bool} {st : σ} {s s' : Sharing} {a a' : SNode} {m : Spec.Map} {i : Bytes}
    (h : Att (shared S st) (sharedLawful L st) long s a m)
    (he : tryReattach (shared S st) a s = (.ok (a', i), s')) {st' : σ} (hm : Mono L (world S st s'.log) st') :
    (∃ a'', tryLoad S st' i = .ok a'' ∧ Snapshot L st' a'' m) ∨
    (∃ e, tryLoad S st' i = .err e) ∧ ¬ ReadsSucceed L st' := by
  obtain ⟨t, ho, hs, hr, hd⟩ := att_stands h
  obtain ⟨_, hr', bs, hh, hrec⟩ := post_of_ok (tryReattach_rep (g' := true) hr (Or.inl rfl)) he
  have := tryLoad_rep (S := S) (L := L) (hm _ _ hh) (recRep_other (L := sharedLawful L st) (st := s') (fun i d e => hm i d e) hrec)
  cases e : tryLoad S st' i with
  | ok a'' => rw [e] at this; exact Or.inl ⟨a'', rfl, snapshot_of_rep ho hs hd this⟩
  | err x => rw [e] at this; exact Or.inr ⟨⟨x, rfl⟩, this⟩
  | panic => rw [e] at this; exact this.elim
  | deep => rw [e] at this; exact this.elim

/-- `try_attached` and then `try_reattach` for the id (src/node/mod.rs 3406-3410, 3813-3819). -/
def saveId {σ : Type} (S : BlobStore σ ε) (t : Node) (st : σ) : Res ε (SNode × Bytes) × σ :=
  stBind (tryAttached S t st) fun a st => tryReattach S a st

/-- **C77**. Saving succeeds if the store can take the blobs of the client and of the others. -/
theorem C77_save_succeeds (L : Lawful S) {t : Node} (ht : Proper t) {st : σ} {before : List (List Bytes)}
    (hw : CanWrite S (3 * t.nodes + 6 * (iter t).length + 4 + (before.map List.length).sum) st) (during : Bytes → List Bytes) :
    ∃ a i s, saveId (shared S st) t (Sharing.start before during) = (.ok (a, i), s) := by
  have hc : CanWrite (shared S st) (3 * t.nodes + 6 * (iter t).length + 4) (Sharing.start before during) := canWrite_shared _ _ hw
  have hp := tryAttached_rep (S := shared S st) (L := sharedLawful L st) (g := true) t (Sharing.start before during) (Or.inl rfl)
  rcases e : tryAttached (shared S st) t (Sharing.start before during) with ⟨r, s⟩
  rw [e] at hp
  cases r with
  | ok a =>
    obtain ⟨a', i, s', h⟩ := C29_reattach_succeeds (Att.attach (L := sharedLawful L st) (long := true) ht (by simp) e) ht
      (fun _ => rfl) ((hp.2.2 _).1 (hc.le (by omega)))
    exact ⟨a', i, s', by rw [saveId, e]; exact h⟩
  | err _ => exact absurd (hc.le (by omega)) hp.2
  | panic => exact absurd (hc.le (by omega)).noPanic hp.2
  | deep => exact absurd (hc.le (by omega)).noPanic hp.2

/-- Two runs, of two clients, are the two sides of one sequence of writes: what one has written is what others have written
for the other. -/
def SameHistory (log log' : List (Bool × Bytes)) : Prop := log' = log.map fun w => (!w.1, w.2)

/-- **C77**. Two clients save two trees at the same time, in a store with the state `st` at first; their writes come in any
order, and one may be done before the other (`more`, `more'`). If both are given an id, then from then on `try_load` of
each of the ids gives the tree that was saved. -/
theorem C77_two_clients {L : Lawful S} {st : σ} {t u : Node} (ht : Proper t) (hu : Proper u)
    {before before' : List (List Bytes)} {during during' : Bytes → List Bytes} {a b : SNode} {i j : Bytes} {s s' : Sharing}
    (he : saveId (shared S st) t (Sharing.start before during) = (.ok (a, i), s))
    (he' : saveId (shared S st) u (Sharing.start before' during') = (.ok (b, j), s'))
    {more more' : List Bytes} (hsame : SameHistory (s.log ++ others more) (s'.log ++ others more'))
    {st' : σ} (hm : Mono L (world S st (s.log ++ others more)) st') (hr : ReadsSucceed L st') :
    (∃ a', tryLoad S st' i = .ok a' ∧ Snapshot L st' a' (get t)) ∧
    ∃ b', tryLoad S st' j = .ok b' ∧ Snapshot L st' b' (get u) := by
  have one : ∀ {t : Node} {before during} {a : SNode} {i : Bytes} {s : Sharing}, Proper t →
      saveId (shared S st) t (Sharing.start before during) = (.ok (a, i), s) → ∀ {more},
      Mono L (world S st (s.log ++ others more)) st' → ∃ a', tryLoad S st' i = .ok a' ∧ Snapshot L st' a' (get t) := by
    intro t before during a i s ht he more hm
    obtain ⟨a1, s1, h1, h2⟩ := stBind_ok he
    rcases C77_snapshot (Att.attach (L := sharedLawful L st) (long := true) ht (by simp) h1) h2
      (Mono.trans (by rw [world_append]; exact world_mono L _ _) hm) with h | h
    · exact h
    · exact absurd hr h.2
  refine ⟨one ht he hm, one hu he' (more := more') ?_⟩
  rw [hsame, world_flip]
  exact hm

end

/-! ### Concrete case: two trees saved in a `MemStore`, all writes of the second after the first write of the first -/

/-- What a run writes itself. -/
def ownWrites (s : Sharing) : List Bytes := (s.log.filter fun w => w.1).map fun w => w.2

/-- The first write of the first client. -/
def firstWrites : List Bytes := (ownWrites (saveId (shared memStore []) sampleA (Sharing.start [] fun _ => [])).2).take 1

/-- The second client: the first has written once when it begins. -/
def secondSave : Res Unit (SNode × Bytes) × Sharing :=
  saveId (shared memStore []) sampleB (Sharing.start [firstWrites] fun _ => [])

/-- The first client: the second does everything between its first and its second write. -/
def firstSave : Res Unit (SNode × Bytes) × Sharing :=
  saveId (shared memStore []) sampleA (Sharing.start [[], ownWrites secondSave.2] fun _ => [])

/-- What the first client writes after the second is done. -/
def restWrites : List Bytes := (ownWrites firstSave.2).drop 1

/-- The id, if there is one. -/
def idOf (r : Res Unit (SNode × Bytes)) : Option Bytes := r.toOption.map fun x => x.2

/-- Both are given an id, these are the ids, the two logs fit, and they are not trivial: the writes are interleaved. -/
theorem two_saves : idOf firstSave.1 = some [0, 0, 0, 0, 0, 0, 0, 7] ∧ idOf secondSave.1 = some [0, 0, 0, 0, 0, 0, 0, 4] ∧
    firstSave.2.log ++ others [] = (secondSave.2.log ++ others restWrites).map (fun w => (!w.1, w.2)) ∧
    firstSave.2.log.map (fun w => w.1) = [true, false, false, false, true, true, true] := by
  decide +kernel

theorem idOf_ok {r : Res Unit (SNode × Bytes)} {i : Bytes} (h : idOf r = some i) : ∃ a, r = .ok (a, i) := by
  cases r with
  | ok x => simp [idOf, Res.toOption] at h; exact ⟨x.1, by rw [← h]⟩
  | _ => simp [idOf, Res.toOption] at h

/-- Both ids load, in the state after all writes and later. -/
example {st : MemState} (hm : Mono memLawful (world memStore [] firstSave.2.log) st) :
    (∃ a, tryLoad memStore st [0, 0, 0, 0, 0, 0, 0, 7] = .ok a ∧ Snapshot memLawful st a (get sampleA)) ∧
    ∃ b, tryLoad memStore st [0, 0, 0, 0, 0, 0, 0, 4] = .ok b ∧ Snapshot memLawful st b (get sampleB) := by
  obtain ⟨h1, h2, h3, _⟩ := two_saves
  obtain ⟨a, h1⟩ := idOf_ok h1
  obtain ⟨b, h2⟩ := idOf_ok h2
  refine C77_two_clients (L := memLawful) (st := []) (s := firstSave.2) (s' := secondSave.2) (more := []) (more' := restWrites)
    sampleA_proper sampleB_proper (Prod.ext h1 rfl) (Prod.ext h2 rfl) ?_ (by simpa [others] using hm) (mem_readsSucceed st)
  have : ((fun w : Bool × Bytes => (!w.1, w.2)) ∘ fun w => (!w.1, w.2)) = id := by funext w; simp
  rw [SameHistory, h3, List.map_map, this, List.map_id]

/-- Lookups while others write: in a `MemStore` they never fail. -/
example : ∃ a st, Att memStore memLawful false st a (get sampleA) ∧ ∀ before during,
    Snapshot (sharedLawful memLawful st) (Sharing.start before during) a (get sampleA) ∧
    ReadsSucceed (sharedLawful memLawful st) (Sharing.start before during) := by
  obtain ⟨a, st, h, _⟩ := mem_att
  exact ⟨a, st, h, fun before during => ⟨C77_reads h before during, C77_no_error (fun st' _ => mem_readsSucceed st') before during⟩⟩

/-- Saving succeeds while others write a hundred blobs. -/
example (ds : List Bytes) (hd : ds.length = 100) (during : Bytes → List Bytes) :
    ∃ a i s, saveId (shared memStore []) sampleA (Sharing.start [[], [], ds] during) = (.ok (a, i), s) :=
  C77_save_succeeds memLawful sampleA_proper (mem_canWrite (by
    have h1 : sampleA.nodes < 100 := by decide +kernel
    have h2 : (iter sampleA).length < 100 := by decide +kernel
    simp [MemState.max, hd]; omega)) during

end Radix
