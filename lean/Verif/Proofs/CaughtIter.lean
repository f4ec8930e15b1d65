import Verif.Spec.Caught
import Verif.Proofs.History
import Verif.Proofs.AttachedIter

/- Iterators over stored trees that go on after a panic was caught. -/

set_option linter.unusedVariables false

namespace Radix
open Node

section
variable {σ ε : Type} {S : BlobStore σ ε} {L : Lawful S} {g : Bool}

/-- Siblings in the tree at `path`: entries of later ones do not begin with the prefix of an earlier one. -/
def ApartL (path : Bytes) : List Node → Prop
  | [] => True
  | n :: l => Ord n ∧ (∀ e ∈ entsL path l, ¬ (path ++ n.pfx) <+: e.1) ∧ ApartL path l

/-- Children, if any. -/
def ApartO (path : Bytes) : Option (List Node) → Prop
  | none => True
  | some l => ApartL path l

/-- Stacks: entries that come after the children of a node do not begin with its path. -/
def Apart (path : Bytes) : List Frame → Prop
  | [] => True
  | (plen, o) :: st => ApartO path o ∧ (∀ e ∈ stackEnts (pathPop path plen) st, ¬ path <+: e.1) ∧ Apart (pathPop path plen) st

theorem apartL_of_ord (path : Bytes) : ∀ {l : List Node}, OrdK l → ApartL path l
  | [], _ => trivial
  | n :: l, h => by
    simp only [OrdK] at h
    refine ⟨h.2.1, fun e he hp => ?_, apartL_of_ord path h.2.2.2⟩
    obtain ⟨c, hc, he⟩ := mem_entsL.1 he
    have hcp := h.2.2.2.mem hc
    obtain ⟨r, hr⟩ := ents_prefix hcp.2 he
    rw [hr, List.append_assoc, List.prefix_append_right_inj] at hp
    obtain ⟨x, hx⟩ := firstByte_of_ne_nil h.1
    obtain ⟨y, hy⟩ := firstByte_of_ne_nil hcp.1
    have hlt := h.2.2.1 c hc
    rw [hx, hy] at hlt
    unfold firstByte at hx hy
    rcases e1 : n.pfx with _ | ⟨x', xs⟩
    · exact h.1 e1
    · rcases e2 : c.pfx with _ | ⟨y', ys⟩
      · exact hcp.1 e2
      · rw [e1] at hx hp
        rw [e2] at hy hp
        simp only [List.head?_cons, Option.some.injEq] at hx hy
        rw [List.cons_append, List.cons_prefix_cons] at hp
        obtain ⟨rfl, -⟩ := hp
        subst hx; subst hy
        simp [rank] at hlt

theorem apart_push {path : Bytes} {plen : Nat} {node : Node} {rest : List Node} {st : List Frame} (h : Apart path ((plen, some (node :: rest)) :: st)) :
    (∀ e ∈ ents path node, (path ++ node.pfx) <+: e.1) ∧ (∀ e ∈ stackEnts path ((plen, some rest) :: st), ¬ (path ++ node.pfx) <+: e.1) ∧
    Apart path ((plen, some rest) :: st) ∧ Apart (pathAppend path node.pfx) ((node.pfx.length, node.loadChildrenOwned) :: (plen, some rest) :: st) := by
  obtain ⟨⟨ho, h1, h2⟩, h3, h4⟩ := h
  have h5 : ∀ e ∈ stackEnts path ((plen, some rest) :: st), ¬ (path ++ node.pfx) <+: e.1 := by
    intro e he
    simp only [stackEnts, entsO, List.mem_append] at he
    rcases he with he | he
    · exact h1 e he
    · exact fun hp => h3 e he ((List.prefix_append _ _).trans hp)
  refine ⟨fun e he => ?_, h5, ⟨h2, h3, h4⟩, ?_⟩
  · obtain ⟨r, hr⟩ := ents_prefix ho he
    exact ⟨r, hr.symm⟩
  · refine ⟨?_, ?_, ?_⟩
    · unfold loadChildrenOwned
      cases node with
      | mk p v c =>
        cases c with
        | none => trivial
        | some l => exact apartL_of_ord _ ho
    · simp only [pathAppend, pathPop_append]; exact h5
    · simp only [pathAppend, pathPop_append]; exact ⟨h2, h3, h4⟩

/-- What a step does, in terms of what remains to be yielded. -/
def StepPost (L : Lawful S) (g : Bool) (st : σ) (l : List (Bytes × Bytes)) : Except ε (Option (Bytes × BlobV)) × SIter → Prop
  | (.error _, s) => ¬ ReadsSucceed L st ∧ ∃ q l1, SIterRep L g st s q ∧ Apart q.path q.stack ∧ l = l1 ++ stackEnts q.path q.stack ∧ Branch l1 (stackEnts q.path q.stack)
  | (.ok none, s) => l = [] ∧ ∃ q, SIterRep L g st s q ∧ Apart q.path q.stack ∧ stackEnts q.path q.stack = []
  | (.ok (some x), s) => ∃ y q, SIterRep L g st s q ∧ Apart q.path q.stack ∧ l = y :: stackEnts q.path q.stack ∧ x.1 = y.1 ∧ ValRep L st x.2 (some y.2)

theorem step_rep {st : σ} : ∀ (N : Nat) {s : SIter} {s' : KVIter}, SIterRep L g st s s' → Apart s'.path s'.stack → stackSize s'.stack ≤ N →
    ∃ x, (∀ fuel, N < fuel → SIter.step S st fuel s = .ok x) ∧ StepPost L g st (stackEnts s'.path s'.stack) x := by
  intro N
  induction N with
  | zero =>
    rintro ⟨path, stk⟩ ⟨path', stk'⟩ ⟨rfl, h⟩ ha hf
    have : stk' = [] := by
      rcases stk' with _ | ⟨⟨n, _ | l⟩, st'⟩
      · rfl
      · simp only [stackSize, frameSize] at hf; omega
      · simp only [stackSize, frameSize] at hf; omega
    subst this
    cases (stackRep_nil h)
    refine ⟨(.ok none, ⟨path, []⟩), fun fuel hfu => ?_, rfl, ⟨path, []⟩, ⟨rfl, trivial⟩, trivial, rfl⟩
    obtain ⟨f, rfl⟩ : ∃ f, fuel = f + 1 := ⟨fuel - 1, by omega⟩
    simp only [SIter.step]
  | succ N ih =>
    rintro ⟨path, stk⟩ ⟨path', stk'⟩ ⟨rfl, h⟩ ha hf
    simp only at h ha hf
    match stk', h, ha, hf with
    | [], h, ha, hf =>
      cases (stackRep_nil h)
      refine ⟨(.ok none, ⟨path, []⟩), fun fuel hfu => ?_, rfl, ⟨path, []⟩, ⟨rfl, trivial⟩, trivial, rfl⟩
      obtain ⟨f, rfl⟩ : ∃ f, fuel = f + 1 := ⟨fuel - 1, by omega⟩
      simp only [SIter.step]
    | (plen, some (node :: rest)) :: st', h, ha, hf =>
      obtain ⟨o1, s1, rfl, ho, hs⟩ := stackRep_cons h
      obtain ⟨it, rfl, hi⟩ := oiter_some ho
      obtain ⟨y, it', e3, h1, h2⟩ := hi.next_cons
      have hskip : SIterRep L g st ⟨path, (plen, some it') :: s1⟩ ⟨path, (plen, some rest) :: st'⟩ := ⟨rfl, rfl, h2, hs⟩
      have hents : stackEnts path ((plen, some (node :: rest)) :: st') = ents path node ++ stackEnts path ((plen, some rest) :: st') := by
        simp only [stackEnts, entsO, entsL, List.append_assoc]
      obtain ⟨a1, a2, a3, a4⟩ := apart_push ha
      have hp := loadPrefix_rep h1.pfx
      have hc := h1.loadChildrenOwned
      cases e1 : loadPrefix S st y.pfx with
      | err e =>
        rw [e1] at hp
        refine ⟨(.error e, ⟨path, (plen, some it') :: s1⟩), fun fuel hfu => ?_, hp, _, _, hskip, a3, hents, _, a1, a2⟩
        obtain ⟨f, rfl⟩ : ∃ f, fuel = f + 1 := ⟨fuel - 1, by omega⟩
        simp only [SIter.step, e3, e1]
      | panic => rw [e1] at hp; exact hp.elim
      | deep => rw [e1] at hp; exact hp.elim
      | ok p =>
        rw [e1] at hp
        have hp : p = node.pfx := hp
        subst hp
        cases e2 : y.loadChildrenOwned S st with
        | err e =>
          rw [e2] at hc
          refine ⟨(.error e, ⟨path, (plen, some it') :: s1⟩), fun fuel hfu => ?_, hc, _, _, hskip, a3, hents, _, a1, a2⟩
          obtain ⟨f, rfl⟩ : ∃ f, fuel = f + 1 := ⟨fuel - 1, by omega⟩
          simp only [SIter.step, e3, e1, e2]
        | panic => rw [e2] at hc; exact hc.elim
        | deep => rw [e2] at hc; exact hc.elim
        | ok cs =>
          rw [e2] at hc
          have hrep : SIterRep L g st ⟨pathAppend path node.pfx, (node.pfx.length, cs) :: (plen, some it') :: s1⟩
              ⟨pathAppend path node.pfx, (node.pfx.length, node.loadChildrenOwned) :: (plen, some rest) :: st'⟩ :=
            ⟨rfl, rfl, hc, rfl, h2, hs⟩
          have hin : stackEnts path ((plen, some (node :: rest)) :: st') = (node.val.map fun x => (path ++ node.pfx, x)).toList ++
              stackEnts (pathAppend path node.pfx) ((node.pfx.length, node.loadChildrenOwned) :: (plen, some rest) :: st') := by
            rw [hents, ents_eq]
            simp only [stackEnts, pathAppend, pathPop_append, loadChildrenOwned, entsO_eq]
            simp [kids]
          rcases oval_cases (valueOpt_rep h1.val) with ⟨e4, e5⟩ | ⟨b, w, e4, e5, hv⟩
          · obtain ⟨x, hx, hpost⟩ := ih hrep a4 (by
              have := frameSize_le node.pfx.length node
              have := nodes_pos node
              simp only [stackSize, frameSize, nodesL] at *; omega)
            refine ⟨x, fun fuel hfu => ?_, ?_⟩
            · obtain ⟨f, rfl⟩ : ∃ f, fuel = f + 1 := ⟨fuel - 1, by omega⟩
              simp only [SIter.step, e3, e1, e2, e4]
              exact hx f (by omega)
            · rw [hin, e5]; exact hpost
          · refine ⟨(.ok (some (pathAppend path node.pfx, b)), _), fun fuel hfu => ?_, (pathAppend path node.pfx, w), _, hrep, a4, ?_, rfl, hv⟩
            · obtain ⟨f, rfl⟩ : ∃ f, fuel = f + 1 := ⟨fuel - 1, by omega⟩
              simp only [SIter.step, e3, e1, e2, e4]
            · rw [hin, e5]; rfl
    | (plen, some []) :: st', h, ha, hf =>
      obtain ⟨o1, s1, rfl, ho, hs⟩ := stackRep_cons h
      obtain ⟨it, rfl, hi⟩ := oiter_some ho
      obtain ⟨x, hx, hpost⟩ := ih (s := ⟨path, (plen, none) :: s1⟩) (s' := ⟨path, (plen, none) :: st'⟩) ⟨rfl, rfl, trivial, hs⟩ ⟨trivial, ha.2⟩
        (by simp only [stackSize, frameSize, nodesL] at *; omega)
      refine ⟨x, fun fuel hfu => ?_, ?_⟩
      · obtain ⟨f, rfl⟩ : ∃ f, fuel = f + 1 := ⟨fuel - 1, by omega⟩
        simp only [SIter.step, hi.next_nil]
        exact hx f (by omega)
      · simpa [stackEnts, entsO, entsL] using hpost
    | (plen, none) :: st', h, ha, hf =>
      obtain ⟨o1, s1, rfl, ho, hs⟩ := stackRep_cons h
      cases (oiter_none ho)
      obtain ⟨x, hx, hpost⟩ := ih (s := ⟨pathPop path plen, s1⟩) (s' := ⟨pathPop path plen, st'⟩) ⟨rfl, hs⟩ ha.2.2
        (by simp only [stackSize, frameSize] at *; omega)
      refine ⟨x, fun fuel hfu => ?_, ?_⟩
      · obtain ⟨f, rfl⟩ : ∃ f, fuel = f + 1 := ⟨fuel - 1, by omega⟩
        simp only [SIter.step]
        exact hx f (by omega)
      · simpa [stackEnts, entsO] using hpost

/-- The log of an iterator that may go on after panics. -/
theorem skip_log : ∀ (ps : List (Bool × σ)) {st : σ} {s : SIter} {s' : KVIter}, SIterRep L g st s s' → Apart s'.path s'.stack → Later L st (ps.map (·.2)) →
    ∃ log, log.map (·.1) = ps ∧ IterLog (SIter.nextOr S) s log ∧ SkipLog L (SameEntry L) Branch (stackEnts s'.path s'.stack) log
  | [], st, s, s', h, ha, hl => ⟨[], rfl, .nil _, by simp [SkipLog]⟩
  | (c, st1) :: ps, st, s, s', h, ha, hl => by
    have h := siterRep_mono hl.1 h
    obtain ⟨⟨r, s1⟩, hx, hpost⟩ := step_rep (S := S) _ h ha (Nat.le_refl _)
    rcases r with e | _ | x
    · obtain ⟨hf, q, l1, hq, hqa, hl1, hb⟩ := hpost
      cases c with
      | true =>
        obtain ⟨log, g1, g2, g3⟩ := skip_log ps hq hqa hl.2
        refine ⟨((true, st1), some (.error e)) :: log, by simp [g1], .cons ⟨stackSize s'.stack + 1, fun fuel hfu => ?_⟩ g2, hf, l1, _, hl1, hb, g3⟩
        simp only [SIter.nextOr, if_true, hx fuel hfu, caughtRes]
      | false =>
        have h0 : SIterRep L g st1 ⟨s.path, []⟩ ⟨s.path, []⟩ := ⟨rfl, trivial⟩
        obtain ⟨log, g1, g2, g3⟩ := skip_log ps h0 trivial hl.2
        refine ⟨((false, st1), some (.error e)) :: log, by simp [g1], .cons ⟨stackSize s'.stack + 1, fun fuel hfu => ?_⟩ g2, hf, _, [], (List.append_nil _).symm, rfl, g3⟩
        simp only [SIter.nextOr, Bool.false_eq_true, if_false, SIter.next, Heap.Att.step_forget, hx fuel hfu, Heap.Att.forget]
    · obtain ⟨hnil, q, hq, hqa, hq0⟩ := hpost
      obtain ⟨log, g1, g2, g3⟩ := skip_log ps hq hqa hl.2
      rw [hq0] at g3
      refine ⟨((c, st1), none) :: log, by simp [g1], .cons ⟨stackSize s'.stack + 1, fun fuel hfu => ?_⟩ g2, hnil, g3⟩
      cases c <;> simp only [SIter.nextOr, Bool.false_eq_true, if_false, if_true, SIter.next, Heap.Att.step_forget, hx fuel hfu, Heap.Att.forget, caughtRes]
    · obtain ⟨y, q, hq, hqa, hy, hk, hv⟩ := hpost
      obtain ⟨log, g1, g2, g3⟩ := skip_log ps hq hqa hl.2
      refine ⟨((c, st1), some (.ok x)) :: log, by simp [g1], .cons ⟨stackSize s'.stack + 1, fun fuel hfu => ?_⟩ g2, y, _, hy, ⟨hk, holds_of_rep hv⟩, g3⟩
      cases c <;> simp only [SIter.nextOr, Bool.false_eq_true, if_false, if_true, SIter.next, Heap.Att.step_forget, hx fuel hfu, Heap.Att.forget, caughtRes]

/-! Iterators over values, with the keys that they do not have. -/

/-- The siblings in the stack of a `ValueIter`, with the key of their parent. -/
abbrev GStack := List (Bytes × List Node)

def gents : GStack → List (Bytes × Bytes)
  | [] => []
  | (path, l) :: q => entsL path l ++ gents q

def GApart : GStack → Prop
  | [] => True
  | (path, l) :: q => ApartL path l ∧ (∀ e ∈ gents q, ¬ path <+: e.1) ∧ GApart q

def gpush (path : Bytes) (o : Option (List Node)) (q : GStack) : GStack :=
  match o with
  | some l => (path, l) :: q
  | none => q

theorem gpush_map (path : Bytes) (o : Option (List Node)) (q : GStack) : (gpush path o q).map (·.2) = pushOpt o (q.map (·.2)) := by cases o <;> rfl

theorem gents_push (path : Bytes) (n : Node) (q : GStack) : gents (gpush path n.loadChildrenOwned q) = entsL path n.kids ++ gents q := by
  cases n with
  | mk p v c => cases c <;> simp [gpush, loadChildrenOwned, gents, entsL, kids]

theorem gapart_push {path : Bytes} {node : Node} {rest : List Node} {q : GStack} (h : GApart ((path, node :: rest) :: q)) :
    (∀ e ∈ ents path node, (path ++ node.pfx) <+: e.1) ∧ (∀ e ∈ gents ((path, rest) :: q), ¬ (path ++ node.pfx) <+: e.1) ∧
    GApart ((path, rest) :: q) ∧ GApart (gpush (path ++ node.pfx) node.loadChildrenOwned ((path, rest) :: q)) := by
  obtain ⟨⟨ho, h1, h2⟩, h3, h4⟩ := h
  have h5 : ∀ e ∈ gents ((path, rest) :: q), ¬ (path ++ node.pfx) <+: e.1 := by
    intro e he
    simp only [gents, List.mem_append] at he
    rcases he with he | he
    · exact h1 e he
    · exact fun hp => h3 e he ((List.prefix_append _ _).trans hp)
  refine ⟨fun e he => ?_, h5, ⟨h2, h3, h4⟩, ?_⟩
  · obtain ⟨r, hr⟩ := ents_prefix ho he
    exact ⟨r, hr.symm⟩
  · cases node with
    | mk p v c =>
      cases c with
      | none => exact ⟨h2, h3, h4⟩
      | some l => exact ⟨apartL_of_ord _ ho, h5, h2, h3, h4⟩

/-- What a step of a `ValueIter` does, in terms of the entries that remain. -/
def VStepPost (L : Lawful S) (g : Bool) (st : σ) (l : List (Bytes × Bytes)) : Except ε (Option BlobV) × List TIter → Prop
  | (.error _, s) => ¬ ReadsSucceed L st ∧ ∃ q l1, VStackRep L g st s (q.map (·.2)) ∧ GApart q ∧ l = l1 ++ gents q ∧ Branch l1 (gents q)
  | (.ok none, s) => l = [] ∧ ∃ q, VStackRep L g st s (q.map (·.2)) ∧ GApart q ∧ gents q = []
  | (.ok (some x), s) => ∃ y q, VStackRep L g st s (q.map (·.2)) ∧ GApart q ∧ l = y :: gents q ∧ ValRep L st x (some y.2)

theorem valStep_rep {st : σ} : ∀ (N : Nat) {s : List TIter} {q : GStack}, VStackRep L g st s (q.map (·.2)) → GApart q → vstackSize (q.map (·.2)) ≤ N →
    ∃ x, (∀ fuel, N < fuel → valStep S st fuel s = .ok x) ∧ VStepPost L g st (gents q) x := by
  intro N
  induction N with
  | zero =>
    intro s q h ha hf
    rcases q with _ | ⟨l, q⟩
    · rcases s with _ | ⟨it, s⟩
      · refine ⟨(.ok none, []), fun fuel hfu => ?_, rfl, [], trivial, trivial, rfl⟩
        obtain ⟨f, rfl⟩ : ∃ f, fuel = f + 1 := ⟨fuel - 1, by omega⟩
        simp only [valStep]
      · exact h.elim
    · simp only [List.map_cons, vstackSize] at hf; omega
  | succ N ih =>
    intro s q h ha hf
    match s, q, h, ha, hf with
    | [], [], h, ha, hf =>
      refine ⟨(.ok none, []), fun fuel hfu => ?_, rfl, [], trivial, trivial, rfl⟩
      obtain ⟨f, rfl⟩ : ∃ f, fuel = f + 1 := ⟨fuel - 1, by omega⟩
      simp only [valStep]
    | it :: s, (path, []) :: q, h, ha, hf =>
      obtain ⟨x, hx, hpost⟩ := ih (s := s) (q := q) h.2 ha.2.2 (by simp only [List.map_cons, vstackSize] at *; omega)
      refine ⟨x, fun fuel hfu => ?_, ?_⟩
      · obtain ⟨f, rfl⟩ : ∃ f, fuel = f + 1 := ⟨fuel - 1, by omega⟩
        simp only [valStep, IterRep.next_nil h.1]
        exact hx f (by omega)
      · simpa [gents, entsL] using hpost
    | it :: s, (path, node :: rest) :: q, h, ha, hf =>
      obtain ⟨y, it', e3, h1, h2⟩ := IterRep.next_cons h.1
      have hskip : VStackRep L g st (it' :: s) (((path, rest) :: q : GStack).map (·.2)) := ⟨h2, h.2⟩
      have hents : gents ((path, node :: rest) :: q) = ents path node ++ gents ((path, rest) :: q) := by
        simp only [gents, entsL, List.append_assoc]
      obtain ⟨a1, a2, a3, a4⟩ := gapart_push ha
      have hc := h1.loadChildrenOwned
      cases e2 : y.loadChildrenOwned S st with
      | err e =>
        rw [e2] at hc
        refine ⟨(.error e, it' :: s), fun fuel hfu => ?_, hc, _, _, hskip, a3, hents, _, a1, a2⟩
        obtain ⟨f, rfl⟩ : ∃ f, fuel = f + 1 := ⟨fuel - 1, by omega⟩
        simp only [valStep, e3, e2]
      | panic => rw [e2] at hc; exact hc.elim
      | deep => rw [e2] at hc; exact hc.elim
      | ok cs =>
        rw [e2] at hc
        have hp : VStackRep L g st (pushOptS cs (it' :: s)) ((gpush (path ++ node.pfx) node.loadChildrenOwned ((path, rest) :: q)).map (·.2)) := by
          rw [gpush_map]
          unfold pushOpt
          have hc : OIterRep L g st cs node.loadChildrenOwned := hc
          cases hl : node.loadChildrenOwned with
          | none => rw [hl] at hc; cases (oiter_none hc); exact ⟨h2, h.2⟩
          | some l =>
            rw [hl] at hc
            obtain ⟨i, rfl, hi⟩ := oiter_some hc
            exact ⟨hi, h2, h.2⟩
        have hin : gents ((path, node :: rest) :: q) = (node.val.map fun x => (path ++ node.pfx, x)).toList ++
            gents (gpush (path ++ node.pfx) node.loadChildrenOwned ((path, rest) :: q)) := by
          rw [hents, gents_push, ents_eq, List.append_assoc]
        rcases oval_cases (valueOpt_rep h1.val) with ⟨e4, e5⟩ | ⟨b, w, e4, e5, hv⟩
        · obtain ⟨x, hx, hpost⟩ := ih hp a4 (by
            rw [gpush_map]
            have := vstackSize_pushOpt node (rest :: q.map (·.2))
            simp only [List.map_cons, vstackSize, nodesL] at *; omega)
          refine ⟨x, fun fuel hfu => ?_, ?_⟩
          · obtain ⟨f, rfl⟩ : ∃ f, fuel = f + 1 := ⟨fuel - 1, by omega⟩
            simp only [valStep, e3, e2, e4]
            exact hx f (by omega)
          · rw [hin, e5]; exact hpost
        · refine ⟨(.ok (some b), _), fun fuel hfu => ?_, (path ++ node.pfx, w), _, hp, a4, ?_, hv⟩
          · obtain ⟨f, rfl⟩ : ∃ f, fuel = f + 1 := ⟨fuel - 1, by omega⟩
            simp only [valStep, e3, e2, e4]
          · rw [hin, e5]; rfl
    | [], _ :: _, h, ha, hf => exact h.elim
    | _ :: _, [], h, ha, hf => exact h.elim

theorem vskip_log : ∀ (ps : List (Bool × σ)) {st : σ} {s : List TIter} {q : GStack}, VStackRep L g st s (q.map (·.2)) → GApart q → Later L st (ps.map (·.2)) →
    ∃ log, log.map (·.1) = ps ∧ IterLog (valNextOr S) s log ∧ SkipLog L (fun st b e => Holds L st b e.2) Branch (gents q) log
  | [], st, s, q, h, ha, hl => ⟨[], rfl, .nil _, by simp [SkipLog]⟩
  | (c, st1) :: ps, st, s, q, h, ha, hl => by
    have h := vstackRep_mono hl.1 h
    obtain ⟨⟨r, s1⟩, hx, hpost⟩ := valStep_rep (S := S) _ h ha (Nat.le_refl _)
    rcases r with e | _ | x
    · obtain ⟨hf, q', l1, hq, hqa, hl1, hb⟩ := hpost
      cases c with
      | true =>
        obtain ⟨log, g1, g2, g3⟩ := vskip_log ps hq hqa hl.2
        refine ⟨((true, st1), some (.error e)) :: log, by simp [g1], .cons ⟨vstackSize (q.map (·.2)) + 1, fun fuel hfu => ?_⟩ g2, hf, l1, _, hl1, hb, g3⟩
        simp only [valNextOr, if_true, hx fuel hfu, caughtRes]
      | false =>
        have h0 : VStackRep L g st1 [] (([] : GStack).map (·.2)) := trivial
        obtain ⟨log, g1, g2, g3⟩ := vskip_log ps h0 trivial hl.2
        refine ⟨((false, st1), some (.error e)) :: log, by simp [g1], .cons ⟨vstackSize (q.map (·.2)) + 1, fun fuel hfu => ?_⟩ g2, hf, _, [], (List.append_nil _).symm, rfl, g3⟩
        simp only [valNextOr, Bool.false_eq_true, if_false, valNextS, Heap.Att.valStep_forget, hx fuel hfu, Heap.Att.forget]
    · obtain ⟨hnil, q', hq, hqa, hq0⟩ := hpost
      obtain ⟨log, g1, g2, g3⟩ := vskip_log ps hq hqa hl.2
      rw [hq0] at g3
      refine ⟨((c, st1), none) :: log, by simp [g1], .cons ⟨vstackSize (q.map (·.2)) + 1, fun fuel hfu => ?_⟩ g2, hnil, g3⟩
      cases c <;> simp only [valNextOr, Bool.false_eq_true, if_false, if_true, valNextS, Heap.Att.valStep_forget, hx fuel hfu, Heap.Att.forget, caughtRes]
    · obtain ⟨y, q', hq, hqa, hy, hv⟩ := hpost
      obtain ⟨log, g1, g2, g3⟩ := vskip_log ps hq hqa hl.2
      refine ⟨((c, st1), some (.ok x)) :: log, by simp [g1], .cons ⟨vstackSize (q.map (·.2)) + 1, fun fuel hfu => ?_⟩ g2, y, _, hy, holds_of_rep hv, g3⟩
      cases c <;> simp only [valNextOr, Bool.false_eq_true, if_false, if_true, valNextS, Heap.Att.valStep_forget, hx fuel hfu, Heap.Att.forget, caughtRes]

end

end Radix
