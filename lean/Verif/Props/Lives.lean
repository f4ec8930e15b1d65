import Verif.Proofs.LivesStores
import Verif.Props.AttSafe

/-
Property C83: programs that keep trees in a paged file, or in a file of the browser, and that end or are ended and start again, any number of times.
Sessions (`Op`, `Obs`, `run`) are defined in `Verif/Heap/AttSession.lean`, what they may see (`World`, `Step`, `Run`) in `Verif/Spec/AttMaps.lean`; lives, and the reasons
for which calls may fail (`Life`, `LikeMaps`, `Known`, `Excuse`, `QuietRun`), in `Verif/Spec/Lives.lean`; `Sees` and `Fine` in `Verif/Props/Attached.lean`.
-/

set_option linter.unusedVariables false

namespace Radix.Kept
open Radix
open Radix.Heap.Att (Op Obs Sees Fine)
open Radix.Spec (Map IsEntries)
open Radix.Spec.Kept

section
variable {σ ε : Type} {S : BlobStore σ ε}

/-- What programs see that run in memory, where things share memory, one after the other, each starting with nothing in its hands. -/
def Lived (S : BlobStore σ ε) : σ → List (Life σ ε) → σ → Prop
  | st, [], st' => st' = st
  | st, l :: ls, st' => ∃ mask n st1 c, Fine S mask n st l.ops ∧ Sees S mask n st l.ops l.seen st1 c ∧ Lived S (l.next st1) ls st'

theorem lived_rel (L : Lawful S) : ∀ {ls : List (Life σ ε)} {st st' : σ} {saved}, (∀ id m, saved id = some m → Saved L st id m) → (∀ l ∈ ls, Keeping L l.ops ∧ ∀ st, Mono L st (l.next st)) →
    Lived S st ls st' → ∃ saved', LikeMaps L st saved ls st' saved' ∧ ∀ id m, saved' id = some m → Saved L st' id m := by
  intro ls
  induction ls with
  | nil => rintro st st' saved hs hk rfl; exact ⟨saved, ⟨rfl, rfl⟩, hs⟩
  | cons l ls ih =>
    rintro st st' saved hs hk ⟨mask, n, st1, c, hf, h1, h2⟩
    obtain ⟨w, h3, -, h5⟩ := run_sees L (w := ⟨[], saved⟩) ⟨⟨rfl, fun i ob x h => by cases h⟩, hs⟩ (hk l (by simp)).1 hf h1
    have hr : Rel L st1 [] ⟨[], w.saved⟩ := ⟨⟨rfl, fun i ob x h => by cases h⟩, h5⟩
    obtain ⟨saved', h6, h7⟩ := ih (hr.mono ((hk l (by simp)).2 st1)).2 (fun l hl => hk l (by simp [hl])) h2
    exact ⟨saved', ⟨st1, w, h3, h6⟩, h7⟩

/-- What programs see in any number of lives makes sense with plain maps, if nothing that was stored is lost between two calls and between two lives. An id that `reattach` has given
in one life stands in all later ones for the map of then. -/
theorem C83_lives (L : Lawful S) {ls : List (Life σ ε)} {st st' : σ} (hk : ∀ l ∈ ls, Keeping L l.ops ∧ ∀ st, Mono L st (l.next st)) (h : Lived S st ls st') :
    ∃ saved, LikeMaps L st (fun _ => none) ls st' saved := by
  obtain ⟨saved, h1, -⟩ := lived_rel L (saved := fun _ => none) (fun id m h => by cases h) hk h
  exact ⟨saved, h1⟩

/-- What is seen in some lives, computed with plain values, with a stack of depth 20. -/
def livedB (S : BlobStore σ ε) : σ → List (List (Op σ ε) × (σ → σ)) → Option (List (Life σ ε) × σ)
  | st, [] => some ([], st)
  | st, (ops, next) :: ls =>
    match Radix.Heap.Att.prun S Radix.Heap.Att.exMask 20 (st, []) ops with
    | none => none
    | some (os, st1, o) => (livedB S (next st1) ls).map fun r => (⟨ops, os, next⟩ :: r.1, r.2)

theorem lived_of : ∀ {ls : List (List (Op σ ε) × (σ → σ))} {st : σ} {r : List (Life σ ε) × σ}, livedB S st ls = some r → Lived S st r.1 r.2 := by
  intro ls
  induction ls with
  | nil => intro st r h; cases h; rfl
  | cons l ls ih =>
    intro st r h
    obtain ⟨ops, next⟩ := l
    simp only [livedB] at h
    split at h
    · cases h
    · rename_i os st1 o e
      obtain ⟨x, hx, rfl⟩ := Option.map_eq_some_iff.1 h
      exact ⟨Radix.Heap.Att.exMask, 20, st1, o.length, by show Option.isSome _ = true; rw [e]; rfl, .of e, ih hx⟩

theorem lived_ops : ∀ {ls : List (List (Op σ ε) × (σ → σ))} {st : σ} {r : List (Life σ ε) × σ}, livedB S st ls = some r → ∀ l ∈ r.1, ∃ x ∈ ls, l.ops = x.1 ∧ l.next = x.2 := by
  intro ls
  induction ls with
  | nil => intro st r h l hl; cases h; cases hl
  | cons l ls ih =>
    intro st r h l' hl
    obtain ⟨ops, next⟩ := l
    simp only [livedB] at h
    split at h
    · cases h
    · rename_i os st1 o e
      obtain ⟨x, hx, rfl⟩ := Option.map_eq_some_iff.1 h
      rcases List.mem_cons.1 hl with rfl | hl
      · exact ⟨_, List.mem_cons_self, rfl, rfl⟩
      · obtain ⟨y, hy, h1⟩ := ih hx l' hl
        exact ⟨y, List.mem_cons_of_mem _ hy, h1⟩

end

end Radix.Kept

/-! ### Paged files -/

namespace Radix.Paged
open Radix
open Radix.Heap.Att (Obs Sees)
open Radix.Spec (Map IsEntries)
open Radix.Spec.Kept
open Radix.Kept (Lived lived_rel run_sees run_quiet)

variable {dbg : Bool} {ps : Nat}

/-- Some calls of the store, with any failures of their file operations and with crashes at any byte; and other things may happen to the file operations of the calls after them. -/
def Between (g : Hist → Hist) : Prop := ∃ more coming, ∀ st, g st = ⟨st.ops ++ more, coming⟩

/-- During and after the life there is any use of the store. -/
def AnyUse (l : Life Hist Unit) : Prop := (∀ op ∈ l.ops, ∀ g, op = .outside g → Between g) ∧ Between l.next

theorem between_mono {h8 : 8 ≤ ps} {h32 : ps < 2 ^ 32 + 8} {g : Hist → Hist} (h : Between g) (st : Hist) : Mono (pagedLawful dbg ps h8 h32) st (g st) := by
  obtain ⟨more, coming, h⟩ := h
  rw [h]; exact paged_mono st more coming

/-- A program keeps trees in a paged file, in any number of lives. Reads and writes fail at any point, the process dies at any byte that is written (what it wrote in its last call is then
part of what happens between two lives), the file is used by others that append to it, and opened again. What the program sees makes sense with plain maps. -/
theorem C83_paged {h8 : 8 ≤ ps} {h32 : ps < 2 ^ 32 + 8} {ls : List (Life Hist Unit)} {st st' : Hist} (hk : ∀ l ∈ ls, AnyUse l) (h : Lived (pagedStore dbg ps) st ls st') :
    ∃ saved, LikeMaps (pagedLawful dbg ps h8 h32) st (fun _ => none) ls st' saved :=
  Radix.Kept.C83_lives _ (fun l hl => ⟨fun op ho g hg => between_mono ((hk l hl).1 op ho g hg), between_mono (hk l hl).2⟩) h

/-- The map may be too big for the file: pages are smaller than 68104 bytes (lists of children take up to 68096), or a key or value does not fit into a page, or the file gets too long. -/
def TooBig (dbg : Bool) (ps : Nat) (st : Hist) (m : Map) : Prop :=
  ∃ es, IsEntries m es ∧ (ps < 68104 ∨ (∃ e ∈ es, ps - 8 < e.1.length ∨ ps - 8 < e.2.length) ∨ maxFile < (st.world dbg ps).file.length + (6 * es.length + 4) * (2 * ps))

theorem paged_quiet {h8 : 8 ≤ ps} {h32 : ps < 2 ^ 32 + 8} {st : Hist} (hu : Usable dbg ps st) :
    ReadsSucceed (pagedLawful dbg ps h8 h32) st ∧ ∀ m, NoRoom (pagedLawful dbg ps h8 h32) st m → TooBig dbg ps st m := by
  refine ⟨paged_reads st hu.1 hu.head, ?_⟩
  rintro m ⟨es, he, -, hn⟩
  refine ⟨es, he, ?_⟩
  by_cases h1 : ps < 68104
  · exact Or.inl h1
  by_cases h2 : ∃ e ∈ es, ps - 8 < e.1.length ∨ ps - 8 < e.2.length
  · exact Or.inr (Or.inl h2)
  by_cases h3 : maxFile < (st.world dbg ps).file.length + (6 * es.length + 4) * (2 * ps)
  · exact Or.inr (Or.inr h3)
  refine absurd (paged_accepts (dbg := dbg) h8 h32 (6 * es.length + 4) hu.1 hu.2 (Nat.le_of_not_lt h3)) (hn 8 (ps - 8) (fun st i d h => paged_ids st i d h) (by omega) fun e h => ?_)
  refine Classical.byContradiction fun hc => h2 ⟨e, h, ?_⟩
  omega

/-- After any such lives, the program is started once more and opens the file, and from now on nothing fails, and nobody else uses the file. Then the calls about known
things succeed (the ids that `reattach` has given in earlier lives are known), except for those that store a map with keys of 128 or more bytes or a map that is too big, and those with
functions of the user that fail. -/
theorem C83_paged_quiet {h8 : 8 ≤ ps} {h32 : ps < 2 ^ 32 + 8} (hm : ps % 8 = 0) {ls : List (Life Hist Unit)} {st0 st st' : Hist} {coming : List (List Ev)} {mask : Nat → Nat → List Bool} {n c : Nat}
    {ops : List (Radix.Heap.Att.Op Hist Unit)} {os : List (Obs Unit)} (hk : ∀ l ∈ ls, AnyUse l) (h : Lived (pagedStore dbg ps) st0 ls st) (hl : (st.world dbg ps).file.length < 2 ^ 62)
    (hc : ∀ evs ∈ coming, NoFault evs) (ha : Alone ops) (hf : Radix.Heap.Att.Fine (pagedStore dbg ps) mask n ⟨st.ops ++ [.open []], coming⟩ ops)
    (hs : Sees (pagedStore dbg ps) mask n ⟨st.ops ++ [.open []], coming⟩ ops os st' c) :
    ∃ saved w, LikeMaps (pagedLawful dbg ps h8 h32) st0 (fun _ => none) ls st saved ∧
      QuietRun (pagedLawful dbg ps h8 h32) (TooBig dbg ps) ⟨st.ops ++ [.open []], coming⟩ ⟨[], saved⟩ ops os st' w ∧ w.items.length = c := by
  obtain ⟨saved, h1, h2⟩ := lived_rel (pagedLawful dbg ps h8 h32) (saved := fun _ => none) (fun id m h => by cases h)
    (fun l hl => ⟨fun op ho g hg => between_mono ((hk l hl).1 op ho g hg), between_mono (hk l hl).2⟩) h
  have hr : Radix.Kept.Rel (pagedLawful dbg ps h8 h32) st [] ⟨[], saved⟩ := ⟨⟨rfl, fun i ob x h => by cases h⟩, h2⟩
  obtain ⟨w, h3, h4, -⟩ := run_sees _ (hr.mono (paged_mono st [.open []] coming)) (fun op ho g hg => absurd hg (ha op ho g)) hf hs
  have hu : Usable dbg ps ⟨st.ops ++ [.open []], coming⟩ := by
    refine ⟨?_, hc⟩
    simp only [Hist.world]
    rw [run_append]
    exact open_store (C39_recovery_partial (dbg := dbg) h8 hm (fun op _ => small_of_page h32 op) hl).1
  exact ⟨saved, w, h1, run_quiet ha h3 fun st1 hg _ => paged_quiet (usable_grown hu hg), h4⟩

/-- A paged file store does not panic when it is written to, whatever has happened to it: so the calls that store trees are safe in the sense of C81. -/
theorem C83_paged_writes (h8 : 8 ≤ ps) (h32 : ps < 2 ^ 32 + 8) (st : Hist) (w : Radix.Spec.Kept.World) (i : Nat) : w.writes (pagedStore dbg ps) st i :=
  fun a m es _ _ => paged_noPanic h8 h32 _ st

/-! Three lives. In the first one a tree with a long value is stored; then the process dies while it writes. In the second one the tree is loaded, changed and stored again; then opening the file fails.
In the third one both are read. -/

/-- The first life. -/
def exFirst : List (Radix.Heap.Att.Op Hist Unit) := [.single [1] [2], .insert 0 [1, 2] (List.replicate 200 4), .attached 0, .reattach 1]
/-- What happens after it. -/
def exDies (st : Hist) : Hist := ⟨st.ops ++ [.write (List.replicate 40 1) [.ok, .crash 2], .open []], []⟩
/-- The second life. -/
def exSecond : List (Radix.Heap.Att.Op Hist Unit) := [.load [0, 0, 0, 0, 0, 0, 0, 238], .insert 0 [1, 3] [7], .reattach 0]
/-- What happens after it. -/
def exFails (st : Hist) : Hist := ⟨st.ops ++ [.open [.fail 0]], []⟩
/-- The third life. -/
def exThird : List (Radix.Heap.Att.Op Hist Unit) :=
  [.load [0, 0, 0, 0, 0, 0, 0, 238], .load [0, 0, 0, 0, 0, 0, 1, 21], .get 0 [1, 3], .get 1 [1, 3], .get 1 [1, 2], .loadValue 4, .insert 0 [5] [6], .reattach 0]

/-- The first two lives and the file after them. -/
def exLives : Option (List (Life Hist Unit) × Hist) := Radix.Kept.livedB (pagedStore true 68104) ⟨[.open []], []⟩ [(exFirst, exDies), (exSecond, exFails)]

/-- Where the third life starts. -/
def exOpened : Hist := match exLives with | some r => ⟨r.2.ops ++ [.open []], []⟩ | none => ⟨[], []⟩

theorem exLives_some : ∃ ls st, exLives = some (ls, st) ∧ exOpened = ⟨st.ops ++ [.open []], []⟩ := by
  have h : exLives.isSome = true := by decide +kernel
  unfold exOpened
  cases e : exLives with
  | none => rw [e] at h; cases h
  | some r => exact ⟨r.1, r.2, rfl, rfl⟩

theorem exLives_any {ls st} (h : exLives = some (ls, st)) : ∀ l ∈ ls, AnyUse l := by
  intro l hl
  obtain ⟨x, hx, h1, h2⟩ := Radix.Kept.lived_ops h l hl
  simp only [List.mem_cons, List.not_mem_nil, or_false] at hx
  rcases hx with rfl | rfl
  · refine ⟨?_, ?_⟩
    · rw [h1]; simp [exFirst]
    · rw [h2]; exact ⟨_, _, fun st => rfl⟩
  · refine ⟨?_, ?_⟩
    · rw [h1]; simp [exSecond]
    · rw [h2]; exact ⟨_, _, fun st => rfl⟩

/-- The hypotheses of `C83_paged` and `C83_paged_quiet` are met. -/
example : ∃ ls st, (∀ l ∈ ls, AnyUse l) ∧ Lived (pagedStore true 68104) ⟨[.open []], []⟩ ls st ∧ exOpened = ⟨st.ops ++ [.open []], []⟩ ∧
    ls.map (·.seen) = [[.unit, .unit, .unit, .bytes [0, 0, 0, 0, 0, 0, 0, 238]], [.unit, .unit, .bytes [0, 0, 0, 0, 0, 0, 1, 21]]] := by
  obtain ⟨ls, st, h1, h2⟩ := exLives_some
  refine ⟨ls, st, exLives_any h1, Radix.Kept.lived_of h1, h2, ?_⟩
  have : exLives.map (fun r => r.1.map (·.seen)) = some [[.unit, .unit, .unit, .bytes [0, 0, 0, 0, 0, 0, 0, 238]], [.unit, .unit, .bytes [0, 0, 0, 0, 0, 0, 1, 21]]] := by decide +kernel
  rw [h1] at this
  exact Option.some.inj this
example : (exOpened.world true 68104).file.length < 2 ^ 62 := by decide +kernel
example : Alone exThird := by simp [Alone, exThird]
example : Radix.Heap.Att.Fine (pagedStore true 68104) Radix.Heap.Att.exMask 20 exOpened exThird ∧
    (Radix.Heap.Att.prun (pagedStore true 68104) Radix.Heap.Att.exMask 20 (exOpened, []) exThird).map (fun r => (r.1, r.2.2.length)) =
      some ([.unit, .unit, .value none, .value (some (.data [7])), .value (some (.id [0, 0, 0, 0, 0, 0, 0, 204])), .bytes (List.replicate 200 4), .unit, .bytes [0, 0, 0, 0, 0, 0, 1, 60]], 5) :=
  ⟨by show Option.isSome _ = true; decide +kernel, by decide +kernel⟩

/-- A small map is not too big. -/
example : ¬ TooBig true 68104 exOpened (Map.insert .empty [1] [2]) := by
  rintro ⟨es, he, h⟩
  have h2 : IsEntries (Map.insert .empty [1] [2]) [([1], [2])] := by
    refine ⟨by decide, fun k v => ?_⟩
    simp only [Map.insert, Map.empty, List.mem_cons, Prod.mk.injEq, List.not_mem_nil, or_false]
    by_cases h1 : k = [1]
    · subst h1; simp [eq_comm]
    · simp [h1]
  rw [Radix.Heap.entries_unique he h2] at h
  have hl : (exOpened.world true 68104).file.length < 10000 := by decide +kernel
  rcases h with h | ⟨e, he, h⟩ | h
  · omega
  · simp only [List.mem_singleton] at he; subst he; simp at h
  · simp only [List.length_cons, List.length_nil] at h
    have : maxFile = 2 ^ 63 - 1 := rfl
    omega

end Radix.Paged

/-! ### Files of the browser -/

namespace Radix.Browser
open Radix
open Radix.Heap.Att (Obs Sees)
open Radix.Spec (Map IsEntries Unused reach)
open Radix.Spec.Kept
open Radix.Kept (Lived lived_rel run_sees run_quiet)

variable {cache : Cache} {name : Name} {hp : Plain name} {hu : Unused cache name}

/-- Some calls that read or append, with any failures of the browser, and the page closed at any point; and other things may happen to the calls after them. -/
def Between (g : FileHist → FileHist) : Prop := ∃ more, ∃ hc : ∀ c ∈ more, AppendOnly c, ∃ coming, ∀ st, g st = st.more more hc coming

/-- During and after the life there is any use of the file that does not overwrite or truncate it. -/
def AnyUse (l : Life FileHist Unit) : Prop := (∀ op ∈ l.ops, ∀ g, op = .outside g → Between g) ∧ Between l.next

theorem between_mono {g : FileHist → FileHist} (h : Between g) (st : FileHist) : Mono (fileLawful hp hu) st (g st) := by
  obtain ⟨more, hc, coming, h⟩ := h
  rw [h]; exact file_mono st more hc coming

/-- The same for a file of the browser: what the program sees in any number of lives makes sense with plain maps, also if the browser fails and the page is closed at any point. -/
theorem C83_browser {ls : List (Life FileHist Unit)} {st st' : FileHist} (hk : ∀ l ∈ ls, AnyUse l) (h : Lived (fileStore cache name) st ls st') :
    ∃ saved, LikeMaps (fileLawful hp hu) st (fun _ => none) ls st' saved :=
  Radix.Kept.C83_lives _ (fun l hl => ⟨fun op ho g hg => between_mono ((hk l hl).1 op ho g hg), between_mono (hk l hl).2⟩) h

/-- The map may be too big for the file: with blobs of at least 68096 bytes, and of the size of the largest key or value, the file reaches 2 GiB, or `2 ^ 64` calls. -/
def TooBig (st : FileHist) (m : Map) : Prop :=
  ∃ es, IsEntries m es ∧ ∀ B, 68096 ≤ B → (∀ e ∈ es, e.1.length ≤ B ∧ e.2.length ≤ B) →
    2 ^ 31 ≤ reach 0 st.calls + (6 * es.length + 4) * (B + 4) ∨ 2 ^ 64 < st.calls.length + (6 * es.length + 4)

theorem file_quiet {st : FileHist} (hU : Usable cache name st) (hs : SmallFile st) :
    ReadsSucceed (fileLawful hp hu) st ∧ ∀ m, NoRoom (fileLawful hp hu) st m → TooBig st m := by
  refine ⟨file_reads st hU.1 hU.head hs.1, ?_⟩
  rintro m ⟨es, he, -, hn⟩
  refine ⟨es, he, fun B hB hall => ?_⟩
  refine Classical.byContradiction fun hc => ?_
  rw [not_or] at hc
  exact hn 8 B (fun st i d h => file_ids st i d h) (by omega) hall (file_accepts hp hu B _ hU.1 hU.2 (by omega) (by omega))

/-- After any such lives, the program is started once more and opens the file, and from now on nothing fails, and nobody else uses the file, which is smaller than 2 GiB at the end. Then the calls about known things
succeed, except for those that store a map with keys of 128 or more bytes or a map that is too big, and those with functions of the user that fail. -/
theorem C83_browser_quiet {ls : List (Life FileHist Unit)} {st0 st st' : FileHist} {coming : List (List Ev)} {mask : Nat → Nat → List Bool} {n c : Nat}
    {ops : List (Radix.Heap.Att.Op FileHist Unit)} {os : List (Obs Unit)} (hk : ∀ l ∈ ls, AnyUse l) (h : Lived (fileStore cache name) st0 ls st)
    (hc : ∀ evs ∈ coming, Calm evs) (ha : Alone ops) (hf : Radix.Heap.Att.Fine (fileStore cache name) mask n (st.more [.reopen] only_reopen coming) ops)
    (hs : Sees (fileStore cache name) mask n (st.more [.reopen] only_reopen coming) ops os st' c) (hb : reach 0 st'.calls < 2 ^ 31) (hb' : st'.calls.length < 2 ^ 64) :
    ∃ saved w, LikeMaps (fileLawful hp hu) st0 (fun _ => none) ls st saved ∧
      QuietRun (fileLawful hp hu) TooBig (st.more [.reopen] only_reopen coming) ⟨[], saved⟩ ops os st' w ∧ w.items.length = c := by
  obtain ⟨saved, h1, h2⟩ := lived_rel (fileLawful hp hu) (saved := fun _ => none) (fun id m h => by cases h)
    (fun l hl => ⟨fun op ho g hg => between_mono ((hk l hl).1 op ho g hg), between_mono (hk l hl).2⟩) h
  have hr : Radix.Kept.Rel (fileLawful hp hu) st [] ⟨[], saved⟩ := ⟨⟨rfl, fun i ob x h => by cases h⟩, h2⟩
  obtain ⟨w, h3, h4, -⟩ := run_sees _ (hr.mono (file_mono st [.reopen] only_reopen coming)) (fun op ho g hg => absurd hg (ha op ho g)) hf hs
  have hU : Usable cache name (st.more [.reopen] only_reopen coming) := by
    refine ⟨?_, hc⟩
    simp only [FileHist.more]
    rw [run_snoc]; rfl
  refine ⟨saved, w, h1, run_quiet ha h3 fun st1 hg hg' => ?_, h4⟩
  have hsm := small_grown hg' ⟨hb, hb'⟩
  exact file_quiet (usable_grown hp hu hU hg hsm) hsm

/-- Storing trees in a file of the browser is safe in the sense of C81. -/
theorem C83_browser_writes (st : FileHist) (w : Radix.Spec.Kept.World) (i : Nat) : w.writes (fileStore cache name) st i := fun a m es _ _ => file_noPanic _ st

/-! Two lives. In the first one a tree is stored in an open file; then the page is closed during a `put`. In the second one the tree is loaded, changed and stored again. -/

/-- The first life. -/
def exFirst : List (Radix.Heap.Att.Op FileHist Unit) := [.single [1] [2], .insert 0 [1, 2] (List.replicate 200 4), .attached 0, .reattach 1]
/-- What happens after it. -/
def exCloses (st : FileHist) : FileHist := st.more exMore exMore_only []
/-- The second life. -/
def exSecond : List (Radix.Heap.Att.Op FileHist Unit) := [.load [0, 0, 0, 0, 0, 0, 0, 220], .get 0 [1, 2], .loadValue 1, .insert 0 [1, 3] [7], .reattach 0]

/-- The first life and the file after it. -/
def exLives : Option (List (Life FileHist Unit) × FileHist) := Radix.Kept.livedB (fileStore exCache exName) exOpen [(exFirst, exCloses)]

/-- Where the second life starts. -/
def exOpened : FileHist := match exLives with | some r => r.2.more [.reopen] only_reopen [] | none => exOpen

theorem exLives_some : ∃ ls st, exLives = some (ls, st) ∧ exOpened = st.more [.reopen] only_reopen [] := by
  have h : exLives.isSome = true := by decide +kernel
  unfold exOpened
  cases e : exLives with
  | none => rw [e] at h; cases h
  | some r => exact ⟨r.1, r.2, rfl, rfl⟩

/-- The hypotheses of `C83_browser` and `C83_browser_quiet` are met. -/
example : ∃ ls st, (∀ l ∈ ls, AnyUse l) ∧ Lived (fileStore exCache exName) exOpen ls st ∧ exOpened = st.more [.reopen] only_reopen [] ∧
    ls.map (·.seen) = [[.unit, .unit, .unit, .bytes [0, 0, 0, 0, 0, 0, 0, 220]]] := by
  obtain ⟨ls, st, h1, h2⟩ := exLives_some
  refine ⟨ls, st, fun l hl => ?_, Radix.Kept.lived_of h1, h2, ?_⟩
  · obtain ⟨x, hx, h3, h4⟩ := Radix.Kept.lived_ops h1 l hl
    obtain rfl := List.mem_singleton.1 hx
    refine ⟨?_, ?_⟩
    · rw [h3]; simp [exFirst]
    · rw [h4]; exact ⟨exMore, exMore_only, [], fun st => rfl⟩
  have : exLives.map (fun r => r.1.map (·.seen)) = some [[.unit, .unit, .unit, .bytes [0, 0, 0, 0, 0, 0, 0, 220]]] := by decide +kernel
  rw [h1] at this
  exact Option.some.inj this
example : Alone exSecond := by simp [Alone, exSecond]
example : Radix.Heap.Att.Fine (fileStore exCache exName) Radix.Heap.Att.exMask 20 exOpened exSecond ∧
    (Radix.Heap.Att.prun (fileStore exCache exName) Radix.Heap.Att.exMask 20 (exOpened, []) exSecond).map (fun r => (r.1, r.2.2.length, decide (reach 0 r.2.1.calls < 2 ^ 31 ∧ r.2.1.calls.length < 2 ^ 64))) =
      some ([.unit, .value (some (.id [0, 0, 0, 0, 0, 0, 0, 0])), .bytes (List.replicate 200 4), .unit, .bytes [0, 0, 0, 0, 0, 0, 1, 47]], 2, true) :=
  ⟨by show Option.isSome _ = true; decide +kernel, by decide +kernel⟩

end Radix.Browser
