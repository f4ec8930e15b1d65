import Verif.Spec.Lives
import Verif.Proofs.AttMapsStep

/-
Proof-internal: for which reasons calls of a session with a store fail.
-/

set_option linter.unusedVariables false

namespace Radix.Kept
open Radix
open Radix.Heap.Att (Op Obs fits)
open Radix.Spec (Map)
open Radix.Spec.Kept

section
variable {σ ε : Type} {S : BlobStore σ ε} {L : Lawful S} {st st' : σ} {w w' : World} {o : Obs ε} {e : ε}

theorem no_fails (hr : ReadsSucceed L st) (a : Bool) : ¬ Fails L st a := fun h => h.2 hr

theorem failed_not {why : Prop} (h : failed why w o w') : why := h.2.1

/-- A call on one map fails only if something fails on the map. -/
theorem onMap_err {i : Nat} {P : Bool → Map → Prop} {Q : Prop} (hk : w.knows i) (h : onMap w i o w' P) (ho : o = .err e) (hq : ∀ a m, w.items[i]? = some (.map a m) → P a m → Q) : Q := by
  unfold onMap at h
  split at h
  · exact hq _ _ ‹_› h
  · exact absurd ‹_› hk
  · rw [ho] at h; cases h.1

theorem onMaps_err {i j : Nat} {U : Prop} {P : Bool → Bool → Map → Map → Prop} {Q : Prop} {K : Bool → Bool → Map → Map → Prop} (hk : w.knows2 i j K) (h : onMaps w i j o w' U P) (ho : o = .err e)
    (hq : ∀ a b m m', K a b m m' → P a b m m' → Q) : Q := by
  unfold onMaps at h
  split at h
  · exact hq _ _ _ _ (hk.2.2 _ _ _ _ ‹_› ‹_›) h
  · exact absurd ‹_› hk.2.1
  · exact absurd ‹_› hk.1
  · exact absurd ‹_› hk.1
  · rw [ho] at h; cases h.1

theorem different_err {i j : Nat} {P : Bool → Bool → Map → Map → Prop} {Q : Prop} {K : Bool → Bool → Map → Map → Prop} (hk : w.knows2 i j K) (h : different w i j o w' P) (ho : o = .err e)
    (hq : ∀ a b m m', K a b m m' → P a b m m' → Q) : Q := by
  unfold different at h
  split at h
  · rw [ho] at h; cases h.1
  · exact onMaps_err hk h ho hq

theorem given_err {γ : Type} {A X : γ → Prop} {Y Q : Prop} (h : given A X Y) (hg : ∃ g, A g) (hq : ∀ g, X g → Q) : Q := by
  rcases h with ⟨g, -, h⟩ | ⟨h, -⟩
  · exact hq g h
  · exact absurd hg h

theorem changed_err {why : Prop} {i a m} (h : changed why w i o w' a m) (ho : o = .err e) : why := by
  rcases h with ⟨h, -⟩ | ⟨-, h, -⟩
  · rw [ho] at h; cases h
  · exact h

theorem made_err {why : Prop} {a m} (h : made why w o w' a m) (ho : o = .err e) : why := by
  rcases h with ⟨h, -⟩ | ⟨-, h, -⟩
  · rw [ho] at h; cases h
  · exact h

theorem isBool_err {why P : Prop} (h : isBool why w P o w') (ho : o = .err e) : why := by
  rcases h with ⟨-, h, -⟩ | ⟨-, b, h, -⟩
  · exact h
  · rw [ho] at h; cases h

theorem isValue_err {a v} (h : isValue L st a w v o w') (ho : o = .err e) : Fails L st a := by
  rcases h with ⟨-, h, -⟩ | h
  · exact h
  · cases v with
    | none => rw [ho] at h; cases h.1
    | some d => obtain ⟨b, h, -⟩ := h; rw [ho] at h; cases h

theorem isEntry_err {a v} (h : isEntry L st a w v o w') (ho : o = .err e) : Fails L st a := by
  rcases h with ⟨-, h, -⟩ | h
  · exact h
  · cases v with
    | none => rw [ho] at h; cases h.1
    | some d => obtain ⟨b, h, -⟩ := h; rw [ho] at h; cases h

theorem third {a b : Bool} {R : Prop} (hr : ReadsSucceed L st) (h : Fails L st a ∨ Fails L st b ∨ R) : R := by
  rcases h with h | h | h
  · exact absurd h (no_fails hr _)
  · exact absurd h (no_fails hr _)
  · exact h

theorem step_err {op : Op σ ε} (hr : ReadsSucceed L st) (h : Step L st w op o st' w') (hk : Known L st w op) (ho : o = .err e) : Excuse L (NoRoom L) st w op := by
  cases op with
  | empty a => rw [ho] at h; cases h.2.1
  | single k v => rw [ho] at h; cases h.2.1
  | load id =>
    obtain ⟨m, hm⟩ := hk
    have h := h.2
    rw [hm] at h
    exact absurd (made_err h ho) (no_fails hr _)
  | clone i =>
    have h := h.2
    split at h
    · rw [ho] at h; cases h.1
    · rw [ho] at h; cases h.1
    · exact absurd ‹_› hk
    · rw [ho] at h; cases h.1
  | drop i =>
    have h := h.2
    split at h <;> (rw [ho] at h; cases h.1)
  | insert i k v => exact onMap_err hk h.2 ho fun a m _ h => absurd (changed_err h ho) (no_fails hr _)
  | remove i k => exact onMap_err hk h.2 ho fun a m _ h => absurd (changed_err h ho) (no_fails hr _)
  | removePrefix i p => exact onMap_err hk h.2 ho fun a m _ h => absurd (changed_err h ho) (no_fails hr _)
  | outerCombineWith i j c f =>
    refine different_err hk h.2 ho fun a b m m' hg h => ?_
    split at h
    · exact ⟨a, b, third hr (given_err h (hg ‹_›) fun g h => changed_err h ho)⟩
    · rw [ho] at h; cases h.1
  | innerCombineWith i j f => exact different_err hk h.2 ho fun a b m m' hg h => ⟨a, b, third hr (given_err h hg fun g h => changed_err h ho)⟩
  | leftCombineWith i j f => exact different_err hk h.2 ho fun a b m m' hg h => ⟨a, b, third hr (given_err h hg fun g h => changed_err h ho)⟩
  | retainPrefixWith i j f => exact different_err hk h.2 ho fun a b m m' hg h => ⟨b, third hr (given_err h hg fun g h => changed_err h ho)⟩
  | removePrefixWith i j f => exact different_err hk h.2 ho fun a b m m' hg h => ⟨b, third hr (given_err h hg fun g h => changed_err h ho)⟩
  | outerCombine i j f => exact onMaps_err hk h.2 ho fun a b m m' hg h => ⟨a, b, third hr (given_err h hg fun g h => made_err h ho)⟩
  | innerCombine i j f => exact onMaps_err hk h.2 ho fun a b m m' hg h => ⟨a, b, third hr (given_err h hg fun g h => made_err h ho)⟩
  | leftCombine i j f => exact onMaps_err hk h.2 ho fun a b m m' hg h => ⟨a, b, third hr (given_err h hg fun g h => made_err h ho)⟩
  | innerCombinePred i j f => exact onMaps_err hk h.2 ho fun a b m m' hg h => ⟨a, b, third hr (given_err h hg fun g h => isBool_err h ho)⟩
  | leftCombinePred i j f => exact onMaps_err hk h.2 ho fun a b m m' hg h => ⟨a, b, third hr (given_err h hg fun g h => isBool_err h ho)⟩
  | filterPrefix i p s =>
    refine onMap_err hk.1 h.2 ho fun a m hm h => ?_
    rcases h with ⟨-, h⟩ | ⟨h, -⟩
    · exact absurd (made_err h ho) (no_fails hr _)
    · refine absurd ?_ h
      rcases hk.2 with h | h | h
      · exact Or.inl h
      · exact Or.inr (Or.inl h)
      · exact Or.inr (Or.inr (h a m hm))
  | detached i => exact onMap_err hk h.2 ho fun a m _ h => absurd (made_err h ho) (no_fails hr _)
  | attached i =>
    refine onMap_err hk h.2 ho fun a m hm h => ?_
    split at h
    · rw [ho] at h; cases h.1
    · obtain rfl : a = false := by cases a <;> simp_all
      rcases h with ⟨-, -, h, -⟩ | ⟨h, -⟩ | ⟨h, -⟩
      · exact ⟨m, hm, Or.inr h⟩
      · exact ⟨m, hm, Or.inl h⟩
      · rw [ho] at h; cases h
  | reattach i =>
    refine onMap_err hk h.2 ho fun a m hm h => ?_
    split at h
    · subst_vars
      rcases h with ⟨-, ⟨-, h, -⟩ | ⟨id, h, -⟩⟩ | ⟨h, -⟩
      · exact ⟨m, hm, Or.inr h⟩
      · cases h
      · exact ⟨m, hm, Or.inl h⟩
    · rw [ho] at h; cases h.1
  | get i k => exact onMap_err hk h.2 ho fun a m _ h => absurd (isValue_err h ho) (no_fails hr _)
  | containsKey i k => exact onMap_err hk h.2 ho fun a m _ h => absurd (isBool_err h ho) (no_fails hr _)
  | hasPrefix i p => exact onMap_err hk h.2 ho fun a m _ h => absurd (isBool_err h ho) (no_fails hr _)
  | firstValue i => exact onMap_err hk h.2 ho fun a m _ h => by obtain ⟨es, -, h⟩ := h; exact absurd (isValue_err h ho) (no_fails hr _)
  | lastValue i => exact onMap_err hk h.2 ho fun a m _ h => by obtain ⟨es, -, h⟩ := h; exact absurd (isValue_err h ho) (no_fails hr _)
  | firstEntry i p => exact onMap_err hk h.2 ho fun a m _ h => by obtain ⟨es, -, h⟩ := h; exact absurd (isEntry_err h ho) (no_fails hr _)
  | lastEntry i p => exact onMap_err hk h.2 ho fun a m _ h => by obtain ⟨es, -, h⟩ := h; exact absurd (isEntry_err h ho) (no_fails hr _)
  | rootValue i => exact onMap_err hk h.2 ho fun a m _ h => by obtain ⟨v, h, -⟩ := h; exact absurd (isValue_err h ho) (no_fails hr _)
  | isEmpty i => exact onMap_err hk h.2 ho fun a m _ h => isBool_err h ho
  | loadValue i =>
    have h := h.2
    split at h
    · rcases h with ⟨-, h, -⟩ | ⟨h, -⟩
      · exact absurd h (no_fails hr _)
      · rw [ho] at h; cases h
    · exact absurd ‹_› hk
    · rw [ho] at h; cases h.1
  | iter i => exact onMap_err hk h.2 ho fun a m _ h => by rw [ho] at h; cases h.1
  | scanPrefix i p =>
    refine onMap_err hk h.2 ho fun a m _ h => ?_
    rcases h with ⟨-, h, -⟩ | ⟨h, -⟩
    · exact absurd h (no_fails hr _)
    · rw [ho] at h; cases h
  | values i => exact onMap_err hk h.2 ho fun a m _ h => by rw [ho] at h; cases h.1
  | groupBy i => exact onMap_err hk h.2 ho fun a m _ h => by rw [ho] at h; cases h.1
  | next i =>
    have h := h.2
    split at h
    · rcases h with ⟨-, h, -⟩ | ⟨h, -⟩
      · exact absurd h (no_fails hr _)
      · rw [ho] at h; cases h
    · rcases h with ⟨-, h, -⟩ | ⟨b, h, -⟩
      · exact absurd h (no_fails hr _)
      · rw [ho] at h; cases h
    · rcases h with ⟨-, h, -⟩ | ⟨h, -⟩
      · exact absurd h (no_fails hr _)
      · rw [ho] at h; cases h
    · rcases h with ⟨-, h, -⟩ | ⟨b, h, -⟩
      · exact absurd h (no_fails hr _)
      · rw [ho] at h; cases h
    · exact absurd ‹_› hk
    · rw [ho] at h; cases h.1
  | nextGroup i d =>
    have h := h.2
    split at h
    · rcases h with ⟨-, ⟨-, h, -⟩ | ⟨-, h, -⟩ | ⟨p, es1, es2, m, -, -, -, -, -, h, -⟩⟩ | ⟨h, -⟩
      · exact absurd h (no_fails hr _)
      · rw [ho] at h; cases h
      · rw [ho] at h; cases h
      · exact absurd hk.2 h
    · exact absurd ‹_› hk.1
    · rw [ho] at h; cases h.1
  | readKey i =>
    have h := h.2
    split at h
    · rw [ho] at h; cases h.1
    · exact absurd ‹_› hk
    · rw [ho] at h; cases h.1
  | outside g => rw [ho] at h; cases h.2.1

theorem excuse_imp {op : Op σ ε} {full full' : σ → Map → Prop} (hf : ∀ m, full st m → full' st m) (h : Excuse L full st w op) : Excuse L full' st w op := by
  cases op <;> try exact h
  all_goals
    obtain ⟨m, h1, h2⟩ := h
    exact ⟨m, h1, h2.imp_right (hf m)⟩

theorem step_grown {op : Op σ ε} (ha : ∀ g, op ≠ .outside g) (h : Step L st w op o st' w') : Grown S st st' := by
  cases op
  case outside g => exact absurd rfl (ha g)
  case attached => exact h.1
  case reattach => exact h.1
  all_goals
    obtain ⟨rfl, -⟩ := h
    exact .same

theorem run_grown : ∀ {ops : List (Op σ ε)} {os : List (Obs ε)} {st : σ} {w : World}, Alone ops → Run L st w ops os st' w' → Grown S st st' := by
  intro ops
  induction ops with
  | nil => rintro os st w - ⟨-, rfl, -⟩; exact .same
  | cons op ops ih =>
    rintro os st w ha ⟨o, st1, w1, os', -, h1, h2⟩
    exact (step_grown (ha op (by simp)) h1).trans (ih (fun op ho => ha op (by simp [ho])) h2)

theorem run_quiet {full : σ → Map → Prop} : ∀ {ops : List (Op σ ε)} {os : List (Obs ε)} {st : σ} {w : World}, Alone ops → Run L st w ops os st' w' →
    (∀ st1, Grown S st st1 → Grown S st1 st' → ReadsSucceed L st1 ∧ ∀ m, NoRoom L st1 m → full st1 m) → QuietRun L full st w ops os st' w' := by
  intro ops
  induction ops with
  | nil => intro os st w _ h _; exact h
  | cons op ops ih =>
    rintro os st w ha ⟨o, st1, w1, os', rfl, h1, h2⟩ hi
    have ha' : Alone ops := fun op ho => ha op (by simp [ho])
    have g1 := step_grown (ha op (by simp)) h1
    have g2 := run_grown ha' h2
    obtain ⟨hr, hf⟩ := hi st .same (g1.trans g2)
    exact ⟨o, st1, w1, os', rfl, h1, fun hk e ho => excuse_imp hf (step_err hr h1 hk ho), ih ha' h2 fun st2 h3 h4 => hi st2 (g1.trans h3) h4⟩

end

end Radix.Kept
