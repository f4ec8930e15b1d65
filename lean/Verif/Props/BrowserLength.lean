import Verif.Props.Browser
import Verif.Proofs.BrowserExact

/-
C45: the length of a file of the browser file system after writes that may overlap.
-/

set_option linter.unusedVariables false

namespace Radix.Browser

open Radix.Spec

variable {cache : Cache} {name : Name}

/-- **C45** (partial: what the length is instead). After any sequence of writes at any offsets, that returned `Ok`, with reads and reopening in between, the length
is the furthest end among the pieces of the highest level, in the sense of `Spec/Pieces.lean`. (There is only one such number, `topEnd_unique`.) -/
theorem C45_exact_partial (hp : Plain name) (hu : Unused cache name) {cs : List Call} (hc : OnlyWrites cs)
    (hok : WritesOk (log (fresh cache name) cs)) {n : Nat} (hn : (step (run (fresh cache name) cs) .length).1 = .num n) :
    TopEnd (pieces (writesOf cs)) n := by
  obtain ⟨h1, h2⟩ := winv_fresh hp.ne hu
  obtain ⟨-, h4, h5, -⟩ := log_possible cs h1
  have he := run_pieces cs (ps := []) h1 (by
    intro p
    constructor
    · intro hp; exact absurd hp (by simp)
    · rintro ⟨c, hc, -⟩
      obtain ⟨e, hem, hpe⟩ := mem_chunksOf.1 hc
      have hpe : parseRequest e.1 name = some c := hpe
      rw [hu e hem] at hpe
      exact absurd hpe (by simp)) hc hok
  rw [← h5] at he
  unfold step at hn
  cases hh : (run (fresh cache name) cs).handle with
  | none => rw [hh] at hn; exact absurd hn (by simp)
  | some ch =>
    rw [hh] at hn
    have hn := Seen.num.inj hn
    have hi := h4.file hh []
    rw [← hn]
    refine length_top ?_ ?_ (disjoint_foldl _ (fun p hp => absurd hp (by simp)))
    · show Sorted ch
      rw [show ch = _ from hi.2]; exact sorted_chunksOf _ _
    · show AsPieces ch _
      rw [show ch = _ from hi.2]; exact he

theorem writesOf_append : ∀ (a b : List Call), writesOf (a ++ b) = writesOf a ++ writesOf b
  | [], b => rfl
  | c :: a, b => by rw [List.cons_append, writesOf_cons, writesOf_append a b, ← List.append_assoc, ← writesOf_cons]

theorem writesOk_left {a b : List Call} {w : World} (h : WritesOk (log w (a ++ b))) : WritesOk (log w a) := by
  rw [log_append] at h
  exact fun e he => h e (List.mem_append.2 (Or.inl he))

/-- **C45** is false in general as soon as anything was overwritten. Let two of the writes of a history overlap, all writes having returned `Ok`. Then writes to other
places, for example at the end, do not change the length, however many there are and wherever they are. -/
theorem C45_stuck (hp : Plain name) (hu : Unused cache name) {cs more : List Call} (hc : OnlyWrites (cs ++ more))
    (hok : WritesOk (log (fresh cache name) (cs ++ more))) (hover : ¬ (writesOf cs).Pairwise Apart)
    (hother : ∀ x ∈ writesOf cs, ∀ y ∈ writesOf more, Apart x y) (hmore : (writesOf more).Pairwise Apart) {m n : Nat}
    (hm : (step (run (fresh cache name) cs) .length).1 = .num m) (hn : (step (run (fresh cache name) (cs ++ more)) .length).1 = .num n) : n = m := by
  have h1 := C45_exact_partial hp hu (fun c h => hc c (by simp [h])) (writesOk_left hok) hm
  have h2 := C45_exact_partial hp hu hc hok hn
  rw [writesOf_append, pieces, List.foldl_append] at h2
  refine topEnd_unique h2 (top_foldl_apart _ (pieces_inside _) hother hmore ?_ h1)
  exact high_of_overlap (writesOf cs) (vs := []) (by simp) (by simp) hover

/-- **C45** (partial: when a write brings the length up to date). After any sequence of writes at any offsets that returned `Ok`, a write that begins before the length and
ends where the furthest write ended or later, and that returns `Ok`, makes its own end the length; and this is now the end of the furthest write. -/
theorem C45_cover_partial (hp : Plain name) (hu : Unused cache name) {cs : List Call} {o : Nat} {d : Bytes} {evs : List Ev} (hc : OnlyWrites cs)
    (hok : WritesOk (log (fresh cache name) (cs ++ [.write o d evs]))) {m n : Nat}
    (hm : (step (run (fresh cache name) cs) .length).1 = .num m) (ho : o < m) (hf : furthest (writesOf cs) ≤ o + d.length)
    (hn : (step (run (fresh cache name) (cs ++ [.write o d evs])) .length).1 = .num n) :
    n = o + d.length ∧ n = furthest (writesOf (cs ++ [.write o d evs])) := by
  have h1 := C45_exact_partial hp hu hc (writesOk_left hok) hm
  have hc' : OnlyWrites (cs ++ [.write o d evs]) := by
    intro c h
    rcases List.mem_append.1 h with h | h
    · exact hc c h
    · rw [List.mem_singleton.1 h]; simp
  have h2 := C45_exact_partial hp hu hc' hok hn
  have hw : writesOf (cs ++ [.write o d evs]) = writesOf cs ++ [(o, d.length)] := writesOf_append _ _
  rw [hw] at h2 ⊢
  rw [pieces, List.foldl_append] at h2
  have h3 := top_cover (w := (o, d.length)) h1 (m := furthest (writesOf cs)) (by
    intro p hp
    obtain ⟨x, hx, h4⟩ := pieces_inside _ p hp
    have := foldr_max_spec.1 x hx
    unfold furthest
    omega) ho hf
  have h4 := topEnd_unique h2 h3
  refine ⟨h4, ?_⟩
  have h5 : ∀ (ws : List (Nat × Nat)) x, furthest (ws ++ [x]) = max (furthest ws) (x.1 + x.2) := by
    intro ws x
    unfold furthest
    induction ws with
    | nil => simp
    | cons a ws ih => rw [List.cons_append, List.foldr_cons, ih, List.foldr_cons]; omega
  rw [h5]
  dsimp only at h4 ⊢
  omega

/-- A byte is overwritten in the middle of the file. -/
def exOver : List Call := [.reopen, .write 0 [1, 2, 3, 4] [], .write 4 [5, 6, 7, 8] [], .write 1 [9, 9] []]

/-- Writes at the end, and far from it. -/
def exEnd : List Call := [.write 8 [1] [], .reopen, .write 100 [2] []]

/-- The hypotheses of `C45_exact_partial` and `C45_stuck` are met: the length is 4 although 101 bytes were written to, and goes on being 4. -/
example : ¬ (writesOf exOver).Pairwise Apart ∧ (∀ x ∈ writesOf exOver, ∀ y ∈ writesOf exEnd, Apart x y) ∧ (writesOf exEnd).Pairwise Apart ∧
    (log (fresh exCache exName) (exOver ++ exEnd)).map (·.2) =
      [.opened, .done (.ok ()), .done (.ok ()), .done (.ok ()), .done (.ok ()), .opened, .done (.ok ())] ∧
    (step (run (fresh exCache exName) exOver) .length).1 = .num 4 ∧ (step (run (fresh exCache exName) (exOver ++ exEnd)) .length).1 = .num 4 := by
  refine ⟨?_, ?_, ?_, by decide +kernel, by decide +kernel, by decide +kernel⟩
  · simp [exOver, writesOf, Apart]
  · simp [exOver, exEnd, writesOf, Apart]
  · simp [exEnd, writesOf, Apart]

/-- The pieces in this case. -/
example : pieces (writesOf exOver) = [⟨1, 1, 2⟩, ⟨0, 4, 4⟩, ⟨1, 0, 1⟩, ⟨1, 3, 1⟩] := by decide +kernel

/-- The hypotheses of `C45_cover_partial` are met: the length is 4, and 101 after a write from 3 to 101. -/
example : (log (fresh exCache exName) (exOver ++ exEnd ++ [.write 3 (List.replicate 98 7) []])).map (·.2) =
      [.opened, .done (.ok ()), .done (.ok ()), .done (.ok ()), .done (.ok ()), .opened, .done (.ok ()), .done (.ok ())] ∧
    furthest (writesOf (exOver ++ exEnd)) = 101 ∧
    (step (run (fresh exCache exName) (exOver ++ exEnd ++ [.write 3 (List.replicate 98 7) []])) .length).1 = .num 101 :=
  ⟨by decide +kernel, by decide +kernel, by decide +kernel⟩

end Radix.Browser
