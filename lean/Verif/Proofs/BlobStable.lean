import Verif.Proofs.BlobPaging
import Verif.Props.PagedView

/-
What a program sees of a blob that it holds does not change.
-/

set_option linter.unusedVariables false

namespace Radix.Blobs
open Radix.Paged (View)

/-- The plain world after a program. -/
def sfinal {σ κ : Type} (P : Spec.Blobs.Plain σ κ) (W : Nat) : Spec.Blobs.World σ → List (Op κ) → Option (Spec.Blobs.World σ)
  | v, [] => some v
  | v, op :: ops => (Spec.Blobs.step P W v op).2.bind fun v => sfinal P W v ops

section
variable {τ σ κ : Type} {I : Impl τ κ} {P : Spec.Blobs.Plain σ κ} {R : Mem → τ → σ → Prop} {W : Nat}

theorem run_rel (K : Keeps I P R) : ∀ (ops : List (Op κ)) {w : World τ} {v : Spec.Blobs.World σ}, WRel I R w v →
    ∃ w', run I W w ops = some (Spec.Blobs.run P W v ops, w') ∧
      match w', sfinal P W v ops with
      | none, none => True
      | some w', some v' => WRel I R w' v'
      | _, _ => False
  | [], w, v, h => ⟨some w, rfl, h⟩
  | op :: ops, w, v, h => by
    obtain ⟨o, w', e, eo, hh⟩ := step_ok K W h op
    unfold run Spec.Blobs.run sfinal
    rw [e]
    rcases es : Spec.Blobs.step P W v op with ⟨o', v'⟩
    rw [es] at eo hh
    dsimp only at eo hh
    subst eo
    cases w' with
    | none =>
      cases v' with
      | none => exact ⟨none, rfl, trivial⟩
      | some v' => exact hh.elim
    | some w' =>
      cases v' with
      | none => exact hh.elim
      | some v' =>
        obtain ⟨w2, e2, h2⟩ := run_rel K ops hh
        dsimp only
        rw [e2]
        exact ⟨w2, rfl, h2⟩

theorem sfinal_append : ∀ (ops ops' : List (Op κ)) (v : Spec.Blobs.World σ),
    sfinal P W v (ops ++ ops') = (sfinal P W v ops).bind fun v => sfinal P W v ops'
  | [], ops', v => rfl
  | op :: ops, ops', v => by
    show ((Spec.Blobs.step P W v op).2.bind fun v => sfinal P W v (ops ++ ops')) = ((Spec.Blobs.step P W v op).2.bind fun v => sfinal P W v ops).bind _
    rcases (Spec.Blobs.step P W v op).2 with _ | v'
    · rfl
    · exact sfinal_append ops ops' v'

theorem srun_append : ∀ (ops ops' : List (Op κ)) (v v' : Spec.Blobs.World σ), sfinal P W v ops = some v' →
    Spec.Blobs.run P W v (ops ++ ops') = Spec.Blobs.run P W v ops ++ Spec.Blobs.run P W v' ops' ∧ (Spec.Blobs.run P W v ops).length = ops.length
  | [], ops', v, v', h => by
    cases h
    exact ⟨rfl, rfl⟩
  | op :: ops, ops', v, v', h => by
    unfold sfinal at h
    rcases es : Spec.Blobs.step P W v op with ⟨o, v1⟩
    rw [es] at h
    cases v1 with
    | none => cases h
    | some v1 =>
      have hc : ∀ l, Spec.Blobs.run P W v (op :: l) = o :: Spec.Blobs.run P W v1 l := by
        intro l
        show (match Spec.Blobs.step P W v op with | (o, none) => [o] | (o, some w) => o :: Spec.Blobs.run P W w l) = _
        rw [es]
      obtain ⟨h1, h2⟩ := srun_append ops ops' v1 v' h
      rw [hc, List.cons_append, hc, h1]
      exact ⟨rfl, by rw [List.length_cons, List.length_cons, h2]⟩

theorem slot_append {β : Type} {l l' : List (Option β)} {i : Nat} {u : β} (h : slot l i = some u) : slot (l ++ l') i = some u := by
  unfold slot at h ⊢
  rw [List.getElem?_append_left]
  · exact h
  · rcases e : l[i]? with _ | x
    · rw [e] at h; cases h
    · exact (List.getElem?_eq_some_iff.1 e).1

theorem slot_set {β : Type} {l : List (Option β)} {i j : Nat} {u : β} {x : Option β} (hij : i ≠ j) (h : slot l i = some u) : slot (l.set j x) i = some u := by
  unfold slot at h ⊢
  rw [List.getElem?_set_ne (fun e => hij e.symm)]
  exact h

theorem sstep_slot {op : Op κ} {i : Nat} (hop : op ≠ .drop i) {v v' : Spec.Blobs.World σ} {u : View} (h : slot v.slots i = some u)
    (e : (Spec.Blobs.step P W v op).2 = some v') : slot v'.slots i = some u := by
  cases op with
  | call c =>
    unfold Spec.Blobs.step at e
    dsimp only at e
    split at e
    · cases e; exact h
    · rename_i s es
      dsimp only at e
      rcases ep : (P s c).2 with _ | s'
      · rw [ep] at e; cases e
      · rw [ep] at e; cases e; exact slot_append h
  | lit d => cases e; exact slot_append h
  | copy d => cases e; exact slot_append h
  | slice j s t =>
    unfold Spec.Blobs.step at e
    dsimp only at e
    split at e
    · cases e; exact h
    · split at e
      · cases e; exact h
      · cases e; exact slot_append h
  | clone j =>
    unfold Spec.Blobs.step at e
    dsimp only at e
    split at e
    · cases e; exact h
    · cases e; exact slot_append h
  | toOwned j =>
    unfold Spec.Blobs.step at e
    dsimp only at e
    split at e <;> (cases e; exact h)
  | drop j =>
    unfold Spec.Blobs.step at e
    dsimp only at e
    split at e
    · cases e; exact h
    · cases e; exact slot_set (fun hij => hop (by rw [hij])) h
  | look j =>
    unfold Spec.Blobs.step at e
    dsimp only at e
    split at e <;> (cases e; exact h)
  | close =>
    unfold Spec.Blobs.step at e
    dsimp only at e
    split at e <;> (cases e; exact h)

theorem sfinal_slot {i : Nat} : ∀ (ops : List (Op κ)), (∀ op ∈ ops, op ≠ .drop i) → ∀ {v v' : Spec.Blobs.World σ} {u : View},
    slot v.slots i = some u → sfinal P W v ops = some v' → slot v'.slots i = some u
  | [], _, v, v', u, h, e => by cases e; exact h
  | op :: ops, hop, v, v', u, h, e => by
    unfold sfinal at e
    rcases es : (Spec.Blobs.step P W v op).2 with _ | v1
    · rw [es] at e; cases e
    · rw [es] at e
      exact sfinal_slot ops (fun o ho => hop o (List.mem_cons_of_mem _ ho)) (sstep_slot (hop op (List.mem_cons_self ..)) h es) e

theorem srun_look (v : Spec.Blobs.World σ) (i : Nat) :
    Spec.Blobs.run P W v [.look i] = [match slot v.slots i with | none => .absent | some u => .sees u] ∧ sfinal P W v [.look i] = some v := by
  unfold Spec.Blobs.run sfinal Spec.Blobs.step
  dsimp only
  cases slot v.slots i <;> exact ⟨rfl, rfl⟩

/-- What was seen of a blob is seen again. -/
theorem stable (K : Keeps I P R) {w : World τ} {v : Spec.Blobs.World σ} (h : WRel I R w v) (ops later : List (Op κ)) (i : Nat)
    (hl : ∀ op ∈ later, op ≠ .drop i) {xs : List Seen} {w' : World τ} {u : View}
    (e : run I W w (ops ++ .look i :: later ++ [.look i]) = some (xs, some w')) (hs : xs[ops.length]? = some (.sees u)) :
    xs[ops.length + 1 + later.length]? = some (.sees u) := by
  obtain ⟨w2, e2, h2⟩ := run_rel (W := W) K (ops ++ .look i :: later ++ [.look i]) h
  rw [e2] at e
  injection e with e
  injection e with ex ew
  subst ew
  have ea : ops ++ .look i :: later ++ [.look i] = ops ++ ([.look i] ++ (later ++ [.look i])) := by simp
  rw [ea] at ex h2
  rcases f1 : sfinal P W v ops with _ | v1
  · rw [sfinal_append, f1] at h2; exact h2.elim
  obtain ⟨r1, l1⟩ := srun_append ops ([.look i] ++ (later ++ [.look i])) v v1 f1
  obtain ⟨k1, k2⟩ := srun_look (P := P) (W := W) v1 i
  obtain ⟨r2, l2⟩ := srun_append [.look i] (later ++ [.look i]) v1 v1 k2
  rcases f2 : sfinal P W v1 later with _ | v2
  · rw [sfinal_append, f1] at h2
    change (match some w', sfinal P W v1 ([.look i] ++ (later ++ [.look i])) with | none, none => True | some w', some v' => WRel I R w' v' | _, _ => False) at h2
    rw [sfinal_append, k2] at h2
    change (match some w', sfinal P W v1 (later ++ [.look i]) with | none, none => True | some w', some v' => WRel I R w' v' | _, _ => False) at h2
    rw [sfinal_append, f2] at h2
    exact h2.elim
  obtain ⟨r3, l3⟩ := srun_append later [.look i] v1 v2 f2
  obtain ⟨k3, _⟩ := srun_look (P := P) (W := W) v2 i
  rw [r1, r2, r3, k1, k3] at ex
  have hu : slot v1.slots i = some u := by
    rw [← ex, ← l1, List.getElem?_append_right (Nat.le_refl _), Nat.sub_self] at hs
    cases hc : slot v1.slots i with
    | none => rw [hc] at hs; cases hs
    | some x => rw [hc] at hs; cases hs; rfl
  have hu2 := sfinal_slot later hl hu f2
  rw [← ex, hu, hu2, ← l1, ← l3]
  rw [List.getElem?_append_right (by omega), List.getElem?_append_right (by simp only [List.length_cons, List.length_nil]; omega),
    List.getElem?_append_right (by simp only [List.length_cons, List.length_nil]; omega)]
  have : (Spec.Blobs.run P W v ops).length + 1 + (Spec.Blobs.run P W v1 later).length - (Spec.Blobs.run P W v ops).length - [Seen.sees u].length - (Spec.Blobs.run P W v1 later).length = 0 := by
    simp only [List.length_cons, List.length_nil]; omega
  rw [this]
  rfl

end

/-! ### The bytes behind the maps of a file -/

/-- The view keeps its bytes, whatever happens to the file from now on. -/
def Fixed (dbg : Bool) (ps : Nat) (hist : List Paged.Op) (v : View) : Prop :=
  ∃ bs, ∀ later, v.Valid (Paged.run dbg ps Paged.fresh (hist ++ later)).file ∧ v.bytes (Paged.run dbg ps Paged.fresh (hist ++ later)).file = bs

theorem fixed_own (dbg : Bool) (ps : Nat) (hist : List Paged.Op) (bs : Bytes) : Fixed dbg ps hist (.own bs) := ⟨bs, fun _ => ⟨trivial, rfl⟩⟩

theorem fixed_more {dbg : Bool} {ps : Nat} {hist : List Paged.Op} {v : View} (h : Fixed dbg ps hist v) (more : List Paged.Op) : Fixed dbg ps (hist ++ more) v := by
  obtain ⟨bs, h⟩ := h
  refine ⟨bs, fun later => ?_⟩
  rw [List.append_assoc]
  exact h _

theorem fixed_part {dbg : Bool} {ps : Nat} {hist : List Paged.Op} {v : View} (h : Fixed dbg ps hist v) {i j : Nat} (hij : i ≤ j) (hj : j ≤ Spec.Blobs.size v) :
    Fixed dbg ps hist (Spec.Blobs.part i j v) := by
  obtain ⟨bs, h⟩ := h
  cases v with
  | own d => exact fixed_own ..
  | map start len =>
    unfold Spec.Blobs.part
    dsimp only
    by_cases he : j = i
    · rw [if_pos he]; exact fixed_own ..
    · rw [if_neg he]
      refine ⟨(bs.drop i).take (j - i), fun later => ?_⟩
      obtain ⟨h1, h2⟩ := h later
      have hj : j ≤ len := hj
      unfold View.Valid at h1 ⊢
      unfold View.bytes at h2 ⊢
      dsimp only at h1 h2 ⊢
      refine ⟨by omega, ?_⟩
      rw [← h2, List.drop_take, List.drop_drop, List.take_take, Nat.min_eq_left (by omega)]

/-- The plain world of a program on a store with this history. -/
structure FileRel (dbg : Bool) (ps : Nat) (hist : List Paged.Op) (v : Spec.Blobs.World Paged.Inner) : Prop where
  store : ∀ s, v.store = some s → (Paged.run dbg ps Paged.fresh hist).store = some s
  slots : ∀ i u, slot v.slots i = some u → Fixed dbg ps hist u

theorem fixed_append {dbg : Bool} {ps : Nat} {hist : List Paged.Op} {l l' : List (Option View)} (h : ∀ i u, slot l i = some u → Fixed dbg ps hist u)
    (h' : ∀ u, some u ∈ l' → Fixed dbg ps hist u) : ∀ i u, slot (l ++ l') i = some u → Fixed dbg ps hist u := by
  intro i u hu
  unfold slot at hu
  rcases e : (l ++ l')[i]? with _ | x
  · rw [e] at hu; cases hu
  · rw [e] at hu
    have hx : x = some u := hu
    subst hx
    by_cases hi : i < l.length
    · rw [List.getElem?_append_left hi] at e
      exact h i u (by unfold slot; rw [e]; rfl)
    · rw [List.getElem?_append_right (by omega)] at e
      exact h' u (List.mem_of_getElem? e)

theorem fixed_set {dbg : Bool} {ps : Nat} {hist : List Paged.Op} {l : List (Option View)} (h : ∀ i u, slot l i = some u → Fixed dbg ps hist u) (j : Nat) :
    ∀ i u, slot (l.set j none) i = some u → Fixed dbg ps hist u := by
  intro i u hu
  by_cases hij : j = i
  · subst hij
    unfold slot at hu
    rw [List.getElem?_set_self'] at hu
    rcases e : l[j]? with _ | x
    · rw [e] at hu; cases hu
    · rw [e] at hu; cases hu
  · unfold slot at hu
    rw [List.getElem?_set_ne hij] at hu
    exact h i u hu

theorem paged_run_snoc (dbg : Bool) (ps : Nat) (ops : List Paged.Op) (op : Paged.Op) (w : Paged.World) :
    Paged.run dbg ps w (ops ++ [op]) = (Paged.step dbg ps (Paged.run dbg ps w ops) op).2 := by
  rw [Paged.run_append]; rfl

theorem sizeRange {W : Nat} {v : View} {s e : RBound} {r : Nat × Nat} (h : sliceRange W (Spec.Blobs.size v) s e = some r) : r.1 ≤ r.2 ∧ r.2 ≤ Spec.Blobs.size v :=
  sliceRange_ok h

variable {dbg : Bool} {ps W : Nat}

/-- A step without a call of the store. -/
theorem file_other {hist : List Paged.Op} {v v' : Spec.Blobs.World Paged.Inner} (h : FileRel dbg ps hist v)
    (op : Op PagedOp) (hop : v.store = none ∨ ∀ c, op ≠ .call c) (e : (Spec.Blobs.step (Spec.Blobs.pagedPlain dbg) W v op).2 = some v') :
    FileRel dbg ps hist v' ∧ (op ≠ .close → v'.store = v.store) ∧ (op = .close → v'.store = none) := by
  cases op with
  | call c =>
    rcases hop with hop | hop
    · unfold Spec.Blobs.step at e
      rw [hop] at e
      cases e
      exact ⟨h, fun _ => rfl, fun hc => by cases hc⟩
    · exact absurd rfl (hop c)
  | lit d =>
    cases e
    exact ⟨⟨h.store, fixed_append h.slots fun u hu => by
      have : u = .own d := by simpa using hu
      rw [this]; exact fixed_own ..⟩, fun _ => rfl, fun hc => by cases hc⟩
  | copy d =>
    cases e
    exact ⟨⟨h.store, fixed_append h.slots fun u hu => by
      have : u = .own d := by simpa using hu
      rw [this]; exact fixed_own ..⟩, fun _ => rfl, fun hc => by cases hc⟩
  | slice j s t =>
    unfold Spec.Blobs.step at e
    dsimp only at e
    split at e
    · cases e; exact ⟨h, fun _ => rfl, fun hc => by cases hc⟩
    · rename_i x ex
      split at e
      · cases e; exact ⟨h, fun _ => rfl, fun hc => by cases hc⟩
      · rename_i r er
        cases e
        exact ⟨⟨h.store, fixed_append h.slots fun u hu => by
          have : u = Spec.Blobs.part r.1 r.2 x := by simpa using hu
          rw [this]; exact fixed_part (h.slots j x ex) (sizeRange er).1 (sizeRange er).2⟩, fun _ => rfl, fun hc => by cases hc⟩
  | clone j =>
    unfold Spec.Blobs.step at e
    dsimp only at e
    split at e
    · cases e; exact ⟨h, fun _ => rfl, fun hc => by cases hc⟩
    · rename_i x ex
      cases e
      exact ⟨⟨h.store, fixed_append h.slots fun u hu => by
        have : u = x := by simpa using hu
        rw [this]; exact h.slots j x ex⟩, fun _ => rfl, fun hc => by cases hc⟩
  | toOwned j =>
    unfold Spec.Blobs.step at e
    dsimp only at e
    split at e <;> (cases e; exact ⟨h, fun _ => rfl, fun hc => by cases hc⟩)
  | drop j =>
    unfold Spec.Blobs.step at e
    dsimp only at e
    split at e
    · cases e; exact ⟨h, fun _ => rfl, fun hc => by cases hc⟩
    · cases e; exact ⟨⟨h.store, fixed_set h.slots j⟩, fun _ => rfl, fun hc => by cases hc⟩
  | look j =>
    unfold Spec.Blobs.step at e
    dsimp only at e
    split at e <;> (cases e; exact ⟨h, fun _ => rfl, fun hc => by cases hc⟩)
  | close =>
    unfold Spec.Blobs.step at e
    dsimp only at e
    split at e
    · rename_i hn; cases e; exact ⟨h, fun hc => absurd rfl hc, fun _ => hn⟩
    · cases e; exact ⟨⟨fun s hs => by (cases hs), h.slots⟩, fun hc => absurd rfl hc, fun _ => rfl⟩

theorem file_write {hist : List Paged.Op} {v v' : Spec.Blobs.World Paged.Inner} (h : FileRel dbg ps hist v) {s : Paged.Inner} (hs : v.store = some s)
    (d : Bytes) (evs : List Paged.Ev) (e : (Spec.Blobs.step (Spec.Blobs.pagedPlain dbg) W v (.call (.write d evs))).2 = some v') :
    FileRel dbg ps (hist ++ [.write d evs]) v' ∧ v'.store.isSome := by
  unfold Spec.Blobs.step at e
  rw [hs] at e
  have hrun := paged_run_snoc dbg ps hist (.write d evs) Paged.fresh
  have hst := h.store s hs
  simp only [Paged.step, hst] at hrun
  dsimp only [Spec.Blobs.pagedPlain] at e
  rcases ew : Paged.write dbg d { s with evs := evs } with ⟨o, s'⟩
  rw [ew] at e hrun
  cases o with
  | crash => cases e
  | ok id =>
    cases e
    refine ⟨⟨fun x hx => ?_, fun i u hu => fixed_more (h.slots i u (by simpa [Spec.Blobs.pagedAns, Ans.blob?] using hu)) _⟩, rfl⟩
    cases hx; rw [hrun]; rfl
  | err =>
    cases e
    refine ⟨⟨fun x hx => ?_, fun i u hu => fixed_more (h.slots i u (by simpa [Spec.Blobs.pagedAns, Ans.blob?] using hu)) _⟩, rfl⟩
    cases hx; rw [hrun]; rfl
  | panic =>
    cases e
    refine ⟨⟨fun x hx => ?_, fun i u hu => fixed_more (h.slots i u (by simpa [Spec.Blobs.pagedAns, Ans.blob?] using hu)) _⟩, rfl⟩
    cases hx; rw [hrun]; rfl

theorem file_read (h8 : 8 ≤ ps) {hist : List Paged.Op} {v v' : Spec.Blobs.World Paged.Inner} (h : FileRel dbg ps hist v) {s : Paged.Inner} (hs : v.store = some s)
    (id : Bytes) (evs : List Paged.Ev) (e : (Spec.Blobs.step (Spec.Blobs.pagedPlain dbg) W v (.call (.read id evs))).2 = some v') :
    FileRel dbg ps (hist ++ [.read id evs]) v' ∧ v'.store.isSome := by
  unfold Spec.Blobs.step at e
  rw [hs] at e
  have hrun := paged_run_snoc dbg ps hist (.read id evs) Paged.fresh
  have hst := h.store s hs
  have hsh := Paged.shown_readView (dbg := dbg) id { s with evs := evs }
  have hseen : (Paged.step dbg ps (Paged.run dbg ps Paged.fresh hist) (.read id evs)).1 = .bytes (Paged.read dbg id { s with evs := evs }).1 := by
    simp only [Paged.step, hst]
  simp only [Paged.step, hst] at hrun
  dsimp only [Spec.Blobs.pagedPlain] at e
  rcases ew : Paged.readView dbg id { s with evs := evs } with ⟨o, s'⟩
  rw [ew] at e hsh
  rw [hsh] at hrun hseen
  cases o with
  | crash => cases e
  | ok u0 =>
    cases e
    refine ⟨⟨fun x hx => ?_, fixed_append (fun i u hu => fixed_more (h.slots i u hu) _) fun u hu => ?_⟩, rfl⟩
    · cases hx; rw [hrun]; rfl
    · have hu : u = u0 := by simpa [Spec.Blobs.pagedAns, Ans.blob?] using hu
      subst hu
      obtain ⟨s1, v1, s1', g1, g2, g3⟩ := Paged.C76_paged (dbg := dbg) h8 hist (id := id) (bs := u.bytes s'.data) (evs := evs) hseen
      rw [hst] at g1
      cases g1
      rw [ew] at g2
      cases g2
      refine ⟨u.bytes s'.data, fun later => ?_⟩
      have := g3 later
      rw [List.append_assoc]
      exact this
  | err =>
    cases e
    refine ⟨⟨fun x hx => ?_, fun i u hu => fixed_more (h.slots i u (by simpa [Spec.Blobs.pagedAns, Ans.blob?] using hu)) _⟩, rfl⟩
    cases hx; rw [hrun]; rfl
  | panic =>
    cases e
    refine ⟨⟨fun x hx => ?_, fun i u hu => fixed_more (h.slots i u (by simpa [Spec.Blobs.pagedAns, Ans.blob?] using hu)) _⟩, rfl⟩
    cases hx; rw [hrun]; rfl

theorem file_lastId {hist : List Paged.Op} {v v' : Spec.Blobs.World Paged.Inner} (h : FileRel dbg ps hist v) {s : Paged.Inner} (hs : v.store = some s)
    (e : (Spec.Blobs.step (Spec.Blobs.pagedPlain dbg) W v (.call .lastId)).2 = some v') :
    FileRel dbg ps (hist ++ [.lastId]) v' ∧ v'.store.isSome := by
  unfold Spec.Blobs.step at e
  rw [hs] at e
  have hrun := paged_run_snoc dbg ps hist .lastId Paged.fresh
  have hst := h.store s hs
  simp only [Paged.step, hst] at hrun
  dsimp only [Spec.Blobs.pagedPlain] at e
  cases e
  refine ⟨⟨fun x hx => ?_, fun i u hu => fixed_more (h.slots i u ?_) _⟩, rfl⟩
  · cases hx; rw [hrun]; exact hst
  · revert hu
    cases Paged.lastIdOf s <;> (intro hu; simpa [Ans.blob?] using hu)

theorem file_closed {hist : List Paged.Op} : ∀ (ops : List (Op PagedOp)) {v v' : Spec.Blobs.World Paged.Inner}, FileRel dbg ps hist v → v.store = none →
    sfinal (Spec.Blobs.pagedPlain dbg) W v ops = some v' → FileRel dbg ps hist v'
  | [], v, v', h, _, e => by cases e; exact h
  | op :: ops, v, v', h, hn, e => by
    unfold sfinal at e
    rcases es : (Spec.Blobs.step (Spec.Blobs.pagedPlain dbg) W v op).2 with _ | v1
    · rw [es] at e; cases e
    · rw [es] at e
      obtain ⟨h1, h2, h3⟩ := file_other h op (Or.inl hn) es
      refine file_closed ops h1 ?_ e
      cases op <;> first | exact h3 rfl | exact (h2 (fun hc => by cases hc)).trans hn

theorem file_run (h8 : 8 ≤ ps) : ∀ (ops : List (Op PagedOp)) {hist : List Paged.Op} {v v' : Spec.Blobs.World Paged.Inner}, FileRel dbg ps hist v →
    v.store.isSome → sfinal (Spec.Blobs.pagedPlain dbg) W v ops = some v' → FileRel dbg ps (hist ++ Spec.Blobs.calls ops) v'
  | [], hist, v, v', h, _, e => by
    cases e
    unfold Spec.Blobs.calls
    rw [List.append_nil]; exact h
  | op :: ops, hist, v, v', h, hn, e => by
    unfold sfinal at e
    rcases es : (Spec.Blobs.step (Spec.Blobs.pagedPlain dbg) W v op).2 with _ | v1
    · rw [es] at e; cases e
    · rw [es] at e
      obtain ⟨s, hs⟩ := Option.isSome_iff_exists.1 hn
      cases op with
      | call c =>
        cases c with
        | write d evs =>
          obtain ⟨h1, h2⟩ := file_write h hs d evs es
          have := file_run h8 ops h1 h2 e
          rw [List.append_assoc] at this
          exact this
        | read id evs =>
          obtain ⟨h1, h2⟩ := file_read h8 h hs id evs es
          have := file_run h8 ops h1 h2 e
          rw [List.append_assoc] at this
          exact this
        | lastId =>
          obtain ⟨h1, h2⟩ := file_lastId h hs es
          have := file_run h8 ops h1 h2 e
          rw [List.append_assoc] at this
          exact this
      | close =>
        obtain ⟨h1, h2, h3⟩ := file_other h .close (Or.inr fun c hc => by cases hc) es
        unfold Spec.Blobs.calls
        rw [List.append_nil]
        exact file_closed ops h1 (h3 rfl) e
      | lit d =>
        obtain ⟨h1, h2, h3⟩ := file_other h (.lit d) (Or.inr fun c hc => by cases hc) es
        exact file_run h8 ops h1 (by rw [h2 (fun hc => by cases hc)]; exact hn) e
      | copy d =>
        obtain ⟨h1, h2, h3⟩ := file_other h (.copy d) (Or.inr fun c hc => by cases hc) es
        exact file_run h8 ops h1 (by rw [h2 (fun hc => by cases hc)]; exact hn) e
      | slice j a b =>
        obtain ⟨h1, h2, h3⟩ := file_other h (.slice j a b) (Or.inr fun c hc => by cases hc) es
        exact file_run h8 ops h1 (by rw [h2 (fun hc => by cases hc)]; exact hn) e
      | clone j =>
        obtain ⟨h1, h2, h3⟩ := file_other h (.clone j) (Or.inr fun c hc => by cases hc) es
        exact file_run h8 ops h1 (by rw [h2 (fun hc => by cases hc)]; exact hn) e
      | toOwned j =>
        obtain ⟨h1, h2, h3⟩ := file_other h (.toOwned j) (Or.inr fun c hc => by cases hc) es
        exact file_run h8 ops h1 (by rw [h2 (fun hc => by cases hc)]; exact hn) e
      | drop j =>
        obtain ⟨h1, h2, h3⟩ := file_other h (.drop j) (Or.inr fun c hc => by cases hc) es
        exact file_run h8 ops h1 (by rw [h2 (fun hc => by cases hc)]; exact hn) e
      | look j =>
        obtain ⟨h1, h2, h3⟩ := file_other h (.look j) (Or.inr fun c hc => by cases hc) es
        exact file_run h8 ops h1 (by rw [h2 (fun hc => by cases hc)]; exact hn) e

end Radix.Blobs
