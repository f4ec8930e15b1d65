import Verif.Proofs.SessionMap
import Verif.Proofs.HeapSession

/-
Properties C52, C53, C61 and C62: programs that hold any number of trees, values, keys and iterators that share memory.
Sessions (`Op`, `Obs`, `run`) are defined in `Verif/Heap/Session.lean`, what they may see in `Verif/Spec/Session.lean`.
-/

set_option linter.unusedVariables false

namespace Radix.Heap
open Radix.Spec (Thing Map Allowed AllowedAll IsEntries Tame changes Question)

/-- The program that makes these calls, starting with no memory in use and nothing in its hands, runs to its end, sees `os`, and then has `c` slots.
The number `n` bounds the steps of each call; any number that is large enough will do. Memory that was freed is never used: in the model such a call has no
result. -/
def Sees (ops : List Op) (os : List Obs) (c : Nat) : Prop :=
  ∃ n0, ∀ n, n0 ≤ n → ∃ l h, (run n [] ops).exec [] = some ((os, l), h) ∧ l.length = c

theorem sees (ops : List Op) : Sees ops (prun [] ops).1 (prun [] ops).2.length :=
  ⟨needAll [] ops, fun n hn => by
    obtain ⟨l, h, e, _, g⟩ := exec_ok ops n hn
    exact ⟨l, h, e, g⟩⟩

theorem Sees.eq {ops os c} (h : Sees ops os c) : os = (prun [] ops).1 ∧ c = (prun [] ops).2.length := by
  obtain ⟨n0, h0⟩ := h
  obtain ⟨n1, h1⟩ := sees ops
  obtain ⟨l, h, e, el⟩ := h0 (max n0 n1) (Nat.le_max_left _ _)
  obtain ⟨l', h', e', el'⟩ := h1 (max n0 n1) (Nat.le_max_right _ _)
  rw [e] at e'
  simp only [Option.some.injEq, Prod.mk.injEq] at e'
  obtain ⟨⟨rfl, rfl⟩, rfl⟩ := e'
  exact ⟨rfl, by rw [← el, el']⟩

theorem prun_len1 : ∀ (ops : List Op) (o : List Obj), (prun o ops).1.length = ops.length
  | [], o => rfl
  | op :: ops, o => by rw [prun]; simp [prun_len1 ops]

theorem prun_len : ∀ (ops : List Op) (o : List Obj), o.length ≤ (prun o ops).2.length
  | [], o => Nat.le_refl _
  | op :: ops, o => Nat.le_trans (pstep_len o op) (prun_len ops _)

theorem prun_one (o : List Obj) (op : Op) : prun o [op] = ([(pstep o op).1], (pstep o op).2) := by simp [prun]

theorem prun_snoc (a : List Op) (op : Op) (o : List Obj) :
    prun o (a ++ [op]) = ((prun o a).1 ++ [(pstep (prun o a).2 op).1], (pstep (prun o a).2 op).2) := by rw [prun_append, prun_one]

theorem clone_slot {o : List Obj} {i : Nat} (hn : ∀ ob ∈ o, ob.loan = none) (h : (pstep o (.clone i)).1 = .unit) :
    (pstep o (.clone i)).2[o.length]? = o[i]? ∧ o.length < (pstep o (.clone i)).2.length := by
  simp only [pstep] at h ⊢
  cases e : o[i]? with
  | none => rw [e] at h; cases h
  | some ob =>
    rw [e] at h
    cases ob
    case ref _ _ _ => cases hn _ (List.mem_of_getElem? e)
    all_goals first | cases h; done | simp

theorem next_slots {o : List Obj} {i : Nat} {k v : Bytes} (h : (pstep o (.next i)).1 = .entry (some (k, v))) :
    (pstep o (.next i)).2[(pstep o (.next i)).2.length - 2]? = some (.key k) ∧
    (pstep o (.next i)).2[(pstep o (.next i)).2.length - 1]? = some (.value v) ∧ 2 ≤ (pstep o (.next i)).2.length := by
  have e : pstep o (.next i) = pnextOf o i := rfl
  rw [e] at h ⊢
  unfold pnextOf at h ⊢
  cases e : o[i]? with
  | none => rw [e] at h; cases h
  | some ob =>
    rw [e] at h
    cases ob with
    | kv m =>
      dsimp only at h ⊢
      cases e1 : m.next0.1 with
      | none => rw [e1] at h; cases h
      | some q =>
        rw [e1] at h
        cases h
        dsimp only
        refine ⟨?_, ?_, by simp⟩
        · rw [List.getElem?_append_left (by simp), List.getElem?_append_right (by simp)]; simp
        · rw [List.getElem?_append_right (by simp)]; simp
    | group d m =>
      dsimp only at h
      cases e1 : (groupNext0 (fun p _ => d p) m).1 <;> rw [e1] at h <;> cases h
    | vals m =>
      dsimp only at h
      cases e1 : (valNext0 m).1 <;> rw [e1] at h <;> cases h
    | _ => cases h

/-! ### C52 -/

/-- Every session runs to its end, and what it sees does not depend on the bound of the steps. -/
theorem C52_runs (ops : List Op) : ∃ os c, Sees ops os c ∧ ∀ os' c', Sees ops os' c' → os' = os ∧ c' = c :=
  ⟨_, _, sees ops, fun os' c' h => h.eq⟩

/-- What a session sees is what it would see if every slot held a map of its own (with nothing shared): each call changes its own slot only, and a clone is a
copy. -/
theorem C52_like_maps (ops : List Op) (ht : ∀ op ∈ ops, Tame op) : ∃ os c things, Sees ops os c ∧ AllowedAll [] ops os things ∧ things.length = c :=
  ⟨_, _, _, sees ops, prun_allowed ops [] ht (by simp), by simp⟩

/-- A slot that no call changes gives the same answers as before, whatever is done to other slots, also if they share memory with it. -/
theorem C52_frame {before after : List Op} {q : Nat → Op} {i c d d' : Nat} {os os0 os' : List Obs} {a : Obs} (hq : Question q)
    (hb : Sees before os0 c) (hi : i < c) (ha : ∀ op ∈ after, changes op ≠ some i)
    (h : Sees (before ++ [q i]) (os ++ [a]) d) (h' : Sees (before ++ after ++ [q i]) os' d') : os'.getLast? = some a := by
  have e := h.eq.1
  have e' := h'.eq.1
  have ec := hb.eq.2
  rw [prun_snoc] at e e'
  rw [e', List.getLast?_append]
  have e2 := (List.append_inj' e rfl).2
  simp only [List.cons.injEq, and_true] at e2
  rw [e2, question_slot hq (o' := (prun [] before).2) (j := i)]
  · rfl
  · rw [prun_append]; exact prun_get after _ i (by omega) ha

/-- A clone (in slot `c`) gives the answers that the tree (in slot `i`) gave when it was cloned, whatever is done to the tree and to all other slots. -/
theorem C52_clone {before after : List Op} {q : Nat → Op} {i c d d' d'' : Nat} {os os0 os' : List Obs} {a : Obs} (hq : Question q)
    (hb : Sees before os0 c) (hc : Sees (before ++ [.clone i]) (os0 ++ [.unit]) d'') (ha : ∀ op ∈ after, changes op ≠ some c)
    (h : Sees (before ++ [q i]) (os ++ [a]) d) (h' : Sees (before ++ [.clone i] ++ after ++ [q c]) os' d') : os'.getLast? = some a := by
  have e := h.eq.1
  have e' := h'.eq.1
  have ec := hb.eq.2
  have e3 := hc.eq.1
  rw [prun_snoc] at e e' e3
  rw [e', List.getLast?_append]
  have e2 := (List.append_inj' e rfl).2
  have e4 := (List.append_inj' e3 rfl).2
  simp only [List.cons.injEq, and_true] at e2 e4
  rw [prun_append, prun_snoc]
  have hs := clone_slot (o := (prun [] before).2) (i := i) (prun_new before [] (by simp)) e4.symm
  rw [← ec] at hs
  rw [e2, question_slot hq (o' := (prun [] before).2) (j := i)]
  · rfl
  · show (prun _ after).2[c]? = _
    rw [prun_get after _ c hs.2 ha]; exact hs.1

/-- At every moment of a session, whatever the program holds and whatever any node in memory refers to is still in memory, and its reference count is the
number of references to it (or larger, for an empty array of children). -/
theorem C52_counts (ops : List Op) : ∃ n0, ∀ n, n0 ≤ n → ∃ os l h, (run n [] ops).exec [] = some ((os, l), h) ∧
    (∀ r, (slotsRefs l).count r + (heapRefs h).count r ≤ cnt h r) ∧
    (∀ r, Cells.content h r ≠ some (.inr []) → (slotsRefs l).count r + (heapRefs h).count r = cnt h r) ∧
    (∀ r, r ∈ slotsRefs l ∨ r ∈ heapRefs h → (Cells.content h r).isSome) :=
  ⟨needAll [] ops, fun n hn => by
    obtain ⟨l, h, e, g, _⟩ := exec_ok ops n hn
    refine ⟨_, l, h, e, g.le, g.eq, fun r hr => ?_⟩
    have h1 := g.le r
    have h2 : 0 < cnt h r := by
      rcases hr with hr | hr <;> have := List.count_pos_iff.2 hr <;> omega
    unfold cnt at h2
    cases r with
    | blob a =>
      simp only [Cells.content, Cells.cB]
      cases e : h[a]? with
      | none => simp [Ref.addr, e, ocnt] at h2
      | some c => rcases c with _ | ⟨_ | _⟩ <;> simp_all [Ref.addr, ocnt]
    | kids a =>
      simp only [Cells.content, Cells.cK]
      cases e : h[a]? with
      | none => simp [Ref.addr, e, ocnt] at h2
      | some c => rcases c with _ | ⟨_ | _⟩ <;> simp_all [Ref.addr, ocnt]⟩

/-! ### C53 -/

/-- The key (slot `c - 2`) and the value (slot `c - 1`) that an iterator gave keep their bytes, whatever is done to the iterator, the tree and all other
slots. -/
theorem C53_keys_stay {before after : List Op} {i c d : Nat} {os os' : List Obs} {k v : Bytes}
    (h : Sees (before ++ [.next i]) (os ++ [.entry (some (k, v))]) c) :
    ((∀ op ∈ after, changes op ≠ some (c - 2)) → Sees (before ++ [.next i] ++ after ++ [.read (c - 2)]) os' d → os'.getLast? = some (.bytes (some k))) ∧
    ((∀ op ∈ after, changes op ≠ some (c - 1)) → Sees (before ++ [.next i] ++ after ++ [.read (c - 1)]) os' d → os'.getLast? = some (.bytes (some v))) := by
  have e := h.eq
  rw [prun_snoc] at e
  have e2 := (List.append_inj' e.1 rfl).2
  simp only [List.cons.injEq, and_true] at e2
  have hs := next_slots (o := (prun [] before).2) (i := i) e2.symm
  have hc := e.2
  dsimp only at hc
  rw [← hc] at hs
  constructor <;> intro ha h'
  all_goals
    have e' := h'.eq.1
    rw [prun_snoc, prun_append, prun_snoc] at e'
    rw [e', List.getLast?_append]
    dsimp only
    have hr := prun_get after (pstep (prun [] before).2 (.next i)).2 _ (by omega) ha
  · rw [hs.1] at hr
    have : (pstep (prun (pstep (prun [] before).2 (.next i)).2 after).2 (.read (c - 2))).1 = .bytes (some k) := by
      show (preadOf _ _).1 = _
      unfold preadOf; rw [hr]
    rw [this]; rfl
  · rw [hs.2.1] at hr
    have : (pstep (prun (pstep (prun [] before).2 (.next i)).2 after).2 (.read (c - 1))).1 = .bytes (some v) := by
      show (preadOf _ _).1 = _
      unfold preadOf; rw [hr]
    rw [this]; rfl

/-! ### C61 -/

/-- What the calls of `next` on slot `c` gave. -/
def nextsOf (c : Nat) : List Op → List Obs → List Obs
  | .next j :: ops, o :: os => if j = c then o :: nextsOf c ops os else nextsOf c ops os
  | _ :: ops, _ :: os => nextsOf c ops os
  | _, _ => []

/-- These entries one by one, and then `None`, again and again. -/
def Yields : List (Bytes × Bytes) → List Obs → Prop
  | _, [] => True
  | [], o :: os => o = .entry none ∧ Yields [] os
  | e :: es, o :: os => o = .entry (some e) ∧ Yields es os

/-- A call other than `next` and `drop` leaves an iterator as it is. -/
theorem pstep_kv {o : List Obj} {op : Op} {c : Nat} {m : KVIter} (h : o[c]? = some (.kv m)) (hn : op ≠ .next c) (hd : op ≠ .drop c) :
    (pstep o op).2[c]? = some (.kv m) := by
  have hc : c < o.length := (List.getElem?_eq_some_iff.1 h).1
  have bad : ∀ f, ponOwn o c f = (.bad, o) := by intro f; unfold ponOwn; rw [h]
  have bad2 : ∀ j f, pchangeWith o c j f = (.bad, o) := by
    intro j f; unfold pchangeWith; rw [bad]; split <;> rfl
  by_cases hx : changes op = some c
  · cases op <;> simp only [changes, Option.some.injEq, reduceCtorEq] at hx <;> subst hx
    case drop => exact absurd rfl hd
    case next => exact absurd rfl hn
    all_goals
      simp only [pstep, pchange]
      first
        | (rw [bad]; exact h)
        | (rw [bad2]; exact h)
  · rw [pstep_get o op c hc hx]; exact h

theorem yields_of : ∀ (after : List Op) (o : List Obj) (c : Nat) (m : KVIter), o[c]? = some (.kv m) → (Op.drop c) ∉ after →
    Yields m.toList (nextsOf c after (prun o after).1)
  | [], o, c, m, _, _ => by simp [prun, nextsOf, Yields]
  | op :: after, o, c, m, h, hd => by
    rw [prun]
    by_cases hn : op = .next c
    · subst hn
      simp only [nextsOf, if_true]
      have e : pstep o (.next c) = pnextOf o c := rfl
      rw [e]
      unfold pnextOf
      rw [h]
      have hc : c < o.length := (List.getElem?_eq_some_iff.1 h).1
      dsimp only
      cases hx : m.next0.1 with
      | none =>
        have h2 := next0_toList_none hx
        rw [h2.1]
        refine ⟨rfl, ?_⟩
        have := yields_of after (o.set c (.kv m.next0.2)) c _ (List.getElem?_set_self hc) (fun hm => hd (by simp [hm]))
        rw [h2.2] at this
        exact this
      | some q =>
        rw [next0_toList_some hx]
        refine ⟨rfl, ?_⟩
        refine yields_of after _ c _ ?_ (fun hm => hd (by simp [hm]))
        dsimp only
        rw [List.getElem?_append_left (by simp; omega), List.getElem?_append_left (by simpa using hc)]
        exact List.getElem?_set_self hc
    · have h1 := yields_of after _ c m (pstep_kv h hn (fun e => hd (by simp [e]))) (fun hm => hd (by simp [hm]))
      have e : nextsOf c (op :: after) ((pstep o op).1 :: (prun (pstep o op).2 after).1) = nextsOf c after (prun (pstep o op).2 after).1 := by
        cases op <;> simp only [nextsOf]
        rename_i j
        rw [if_neg (fun e => hn (by rw [e]))]
      show Yields m.toList (nextsOf c (op :: after) ((pstep o op).1 :: (prun (pstep o op).2 after).1))
      rw [e]; exact h1

theorem prun_ok : ∀ (ops : List Op) (o : List Obj), (∀ op ∈ ops, Tame op) → (∀ ob ∈ o, OKObj ob) → ∀ ob ∈ (prun o ops).2, OKObj ob
  | [], o, _, hk => hk
  | op :: ops, o, ht, hk => prun_ok ops _ (fun x hx => ht x (by simp [hx])) (pstep_allowed o op (ht op (by simp)) hk).2

/-- An iterator (in slot `c`) gives the entries of the tree (in slot `i`) at the time when the iterator was made, in the order of the keys, and then nothing.
It does not matter what is done, between the calls of `next`, to the tree, to what the iterator gave, and to all other slots, including dropping them. -/
theorem C61_iter_snapshot {before : List Op} {i c d : Nat} {os : List Obs} (ht : ∀ op ∈ before, Tame op)
    (hb : Sees before os c) (hc : Sees (before ++ [.iter i]) (os ++ [.unit]) d) :
    ∃ es : List (Bytes × Bytes), es.Pairwise (fun a b => a.1 < b.1) ∧
      (∀ k v, (k, v) ∈ es ↔ ∃ d', Sees (before ++ [.get i k]) (os ++ [.bytes (some v)]) d') ∧
      ∀ (after : List Op) (os' : List Obs) (d' : Nat), Op.drop c ∉ after → Sees (before ++ [.iter i] ++ after) (os ++ [.unit] ++ os') d' →
        Yields es (nextsOf c after os') := by
  have eb := hb.eq
  have ec := hc.eq.1
  rw [prun_snoc, ← eb.1] at ec
  have e2 := (List.append_inj' ec rfl).2
  simp only [List.cons.injEq, and_true] at e2
  have hk := prun_ok before [] ht (by simp)
  obtain ⟨t, et⟩ : ∃ t, (prun [] before).2[i]? = some (.tree t) := by
    have hn := prun_new before [] (by simp)
    revert e2 hn
    generalize (prun [] before).2 = o
    simp only [pstep, ponTree]
    intro e2 hn
    split at e2
    · exact ⟨_, by assumption⟩
    · rename_i e; cases hn _ (List.mem_of_getElem? e)
    · simp at e2
  have hp : Proper t := hk _ (List.mem_of_getElem? et)
  refine ⟨Radix.iter t, (entries_iter hp).1, fun k v => ?_, fun after os' d' hd h => ?_⟩
  · rw [(entries_iter hp).2]
    have eg : (pstep (prun [] before).2 (.get i k)).1 = .bytes (Radix.get t k) := by
      simp only [pstep, ponTree, et]
      cases Radix.get t k <;> rfl
    constructor
    · intro hg
      have := sees (before ++ [.get i k])
      rw [prun_snoc, eg, hg, ← eb.1] at this
      exact ⟨_, this⟩
    · rintro ⟨d', h⟩
      have := h.eq.1
      rw [prun_snoc, eg, ← eb.1] at this
      have := (List.append_inj' this rfl).2
      simp only [List.cons.injEq, and_true, Obs.bytes.injEq] at this
      exact this.symm
  · have e := h.eq.1
    rw [prun_append, prun_snoc, ← eb.1, ← e2] at e
    have e3 := List.append_cancel_left e
    dsimp only at e3
    rw [e3]
    refine yields_of after _ c (kvIter t) ?_ hd
    simp only [pstep, ponTree, et]
    rw [eb.2, List.getElem?_append_right (Nat.le_refl _)]
    simp

/-! ### C62 -/

/-- A slot that holds nothing. -/
def Slot.isFree : Slot → Bool
  | .free => true
  | _ => false

/-- The session `ops` ran without a `bad` call and holds nothing at the end, but a cell of memory is still in use. -/
def leaks (r : Option ((List Obs × List Slot) × Heap)) : Bool :=
  match r with
  | some ((os, l), h) => os.all (· ≠ .bad) && l.all Slot.isFree && h.any Option.isSome
  | none => false

/-- After a session that has dropped everything, memory is still in use: `remove` of the last child of a node leaves an empty array of children behind. -/
theorem C62_false : ∃ ops n os l h, (run n [] ops).exec [] = some ((os, l), h) ∧ Obs.bad ∉ os ∧ (∀ s ∈ l, s = .free) ∧
    ∃ (a : Nat) (c : Cell), h[a]? = some (some c) := by
  have hl : leaks ((run 9 [] [.single [1] [2], .insert 0 [1, 2] [3], .remove 0 [1, 2], .drop 0]).exec []) = true := by decide +kernel
  cases e : (run 9 [] [.single [1] [2], .insert 0 [1, 2] [3], .remove 0 [1, 2], .drop 0]).exec [] with
  | none => rw [e] at hl; cases hl
  | some r =>
    obtain ⟨⟨os, l⟩, h⟩ := r
    rw [e] at hl
    simp only [leaks, Bool.and_eq_true, List.all_eq_true, List.any_eq_true, decide_eq_true_eq] at hl
    obtain ⟨⟨h1, h2⟩, x, hx, h3⟩ := hl
    refine ⟨_, _, os, l, h, e, fun hb => h1 _ hb rfl, fun s hs => ?_, ?_⟩
    · have := h2 s hs
      cases s <;> first | rfl | cases this
    · obtain ⟨a, ha⟩ := List.getElem?_of_mem hx
      obtain ⟨c, hc⟩ := Option.isSome_iff_exists.1 h3
      exact ⟨a, c, by rw [ha, hc]⟩

/-- At every moment of a session, everything in memory, other than empty arrays of children, can be reached from what the program holds. In particular, once
the program has dropped everything, only empty arrays of children are left. -/
theorem C62_partial (ops : List Op) : ∃ n0, ∀ n, n0 ≤ n → ∃ os l h, (run n [] ops).exec [] = some ((os, l), h) ∧
    (∀ (a : Nat) (c : Cell), h[a]? = some (some c) → (∃ m, c = .kids m []) ∨ Cells.Reach h (slotsRefs l) (c.ref a)) ∧
    ((∀ s ∈ l, s = .free) → ∀ (a : Nat) (c : Cell), h[a]? = some (some c) → ∃ m, c = .kids m []) :=
  ⟨needAll [] ops, fun n hn => by
    obtain ⟨l, h, e, g, _⟩ := exec_ok ops n hn
    have key : ∀ (a : Nat) (c : Cell), h[a]? = some (some c) → (∃ m, c = .kids m []) ∨ Cells.Reach h (slotsRefs l) (c.ref a) := by
      intro a c ha
      cases c with
      | blob m d => exact .inr (g.reach h.length _ (by omega) (by simp [Cell.ref, Cells.content, Cells.cB, ha]) (by simp [Cell.ref, Cells.content, Cells.cB, ha]))
      | kids m ns =>
        cases ns with
        | nil => exact .inl ⟨m, rfl⟩
        | cons x ns => exact .inr (g.reach h.length _ (by omega) (by simp [Cell.ref, Cells.content, Cells.cK, ha]) (by simp [Cell.ref, Cells.content, Cells.cK, ha]))
    refine ⟨_, l, h, e, key, fun hf a c ha => ?_⟩
    rcases key a c ha with h1 | h1
    · exact h1
    · exfalso
      have h2 : slotsRefs l = [] := by
        unfold slotsRefs
        rw [List.flatMap_eq_nil_iff]
        intro s hs; rw [hf s hs]; rfl
      rw [h2] at h1
      have h3 : ∀ {r}, Cells.Reach h [] r → False := by
        intro r hr
        induction hr with
        | root h4 => cases h4
        | step _ _ _ ih => exact ih
      exact h3 h1⟩

/-! ### Concrete sessions -/

theorem sees_of {ops os c} (h : (prun [] ops).1 = os ∧ (prun [] ops).2.length = c) : Sees ops os c := by
  have := sees ops
  rw [h.1, h.2] at this
  exact this

/-- A tree with three entries, two of them below a common node. -/
def exBefore : List Op := [.single [1] [2], .insert 0 [1, 2] [3], .insert 0 [1, 3] [4]]

/-- The tree is cloned (slot 1), changed and dropped; an iterator over it (slot 2) goes on. -/
def exAfter : List Op := [.iter 0, .remove 0 [1, 2], .next 2, .insert 0 [9] [9], .next 2, .drop 0, .insert 1 [1, 2] [7], .next 2, .drop 3, .next 2]

example : Sees exBefore [.unit, .unit, .unit] 1 := sees_of (by decide +kernel)
example : Sees (exBefore ++ [.clone 0]) ([.unit, .unit, .unit] ++ [.unit]) 2 := sees_of (by decide +kernel)
example : Sees (exBefore ++ [.get 0 [1, 2]]) ([.unit, .unit, .unit] ++ [.bytes (some [3])]) 2 := sees_of (by decide +kernel)
example : ∃ d, Sees (exBefore ++ [.clone 0] ++ [.remove 0 [1, 2], .get 0 [1, 2], .drop 0] ++ [.get 1 [1, 2]])
    [.unit, .unit, .unit, .unit, .unit, .bytes none, .unit, .bytes (some [3])] d := ⟨4, sees_of (by decide +kernel)⟩
example : Sees (exBefore ++ [.clone 0] ++ exAfter) ([.unit, .unit, .unit] ++ [.unit] ++
    [.unit, .unit, .entry (some ([1], [2])), .unit, .entry (some ([1, 2], [3])), .unit, .unit, .entry (some ([1, 3], [4])), .unit, .entry none]) 9 :=
  sees_of (by decide +kernel)
example : ∀ op ∈ exBefore ++ [.clone 0] ++ exAfter, Tame op := by simp [exBefore, exAfter, Tame]
example : nextsOf 2 exAfter [.unit, .unit, .entry (some ([1], [2])), .unit, .entry (some ([1, 2], [3])), .unit, .unit, .entry (some ([1, 3], [4])), .unit,
    .entry none] = [.entry (some ([1], [2])), .entry (some ([1, 2], [3])), .entry (some ([1, 3], [4])), .entry none] := rfl

end Radix.Heap
