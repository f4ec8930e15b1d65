import Verif.Proofs.BlobMemory

/-
A program with blobs, on top of any store that keeps to the rules of memory.
-/

set_option linter.unusedVariables false

namespace Radix.Blobs
open Radix.Paged (View)

/-- The blobs show the values, place by place. -/
def AllShow (m : Mem) : List Blob → List View → Prop
  | [], [] => True
  | b :: bs, v :: vs => Shows m b v ∧ AllShow m bs vs
  | _, _ => False

/-- What is left after a call: the references, the state, and the memory of others. -/
def After {τ σ : Type} (refs : τ → List Nat) (R : Mem → τ → σ → Prop) (rest : List Nat) (m m' : Mem) (a : Ans Blob) : Option τ → Option σ → Prop
  | none, none => True
  | some t', some s' => Inv m' (refs t' ++ (a.blob?.flatMap Blob.refs ++ rest)) ∧ R m' t' s' ∧ ∀ b ∈ rest, m'.get b = m.get b
  | _, _ => False

/-- A store keeps to the rules: its calls give what the plain store gives, its references are counted, and what others refer to does not change. -/
structure Keeps {τ σ κ : Type} (I : Impl τ κ) (P : Spec.Blobs.Plain σ κ) (R : Mem → τ → σ → Prop) : Prop where
  frame : ∀ m m' t s, (∀ a ∈ I.refs t, m'.get a = m.get a) → R m t s → R m' t s
  step : ∀ m t s c rest, Inv m (I.refs t ++ rest) → R m t s →
    ∃ a t' m', I.step t c m = some (a, t', m') ∧ a.seen = (P s c).1.seen ∧ AllShow m' a.blob? (P s c).1.blob? ∧
      After I.refs R rest m m' a t' (P s c).2

/-- One place of the program. -/
def SlotRel (m : Mem) : Option Blob → Option View → Prop
  | none, none => True
  | some b, some v => Shows m b v
  | _, _ => False

/-- All places. -/
def SlotsRel (m : Mem) : List (Option Blob) → List (Option View) → Prop
  | [], [] => True
  | b :: bs, v :: vs => SlotRel m b v ∧ SlotsRel m bs vs
  | _, _ => False

/-- The references of a place. -/
def slotRefs (b : Option Blob) : List Nat := (b.map Blob.refs).getD []

theorem slotRel_mono {m m' : Mem} {b : Option Blob} {v : Option View} (h : SlotRel m b v)
    (hg : ∀ a ∈ slotRefs b, m'.get a = m.get a) : SlotRel m' b v := by
  cases b with
  | none =>
    cases v with
    | none => trivial
    | some v => exact h.elim
  | some b =>
    cases v with
    | none => exact h.elim
    | some v => exact Shows.mono h hg

theorem slotsRel_mono {m m' : Mem} : ∀ {bs : List (Option Blob)} {vs : List (Option View)}, SlotsRel m bs vs →
    (∀ a ∈ bs.flatMap slotRefs, m'.get a = m.get a) → SlotsRel m' bs vs
  | [], [], _, _ => trivial
  | [], _ :: _, h, _ => h.elim
  | _ :: _, [], h, _ => h.elim
  | b :: bs, v :: vs, h, hg =>
    ⟨slotRel_mono h.1 (fun a ha => hg a (by simp [ha])), slotsRel_mono h.2 (fun a ha => hg a (by simp only [List.flatMap_cons, List.mem_append]; exact Or.inr ha))⟩

theorem slotsRel_append {m : Mem} : ∀ {bs : List (Option Blob)} {vs : List (Option View)} {bs' : List (Option Blob)} {vs' : List (Option View)},
    SlotsRel m bs vs → SlotsRel m bs' vs' → SlotsRel m (bs ++ bs') (vs ++ vs')
  | [], [], _, _, _, h' => h'
  | [], _ :: _, _, _, h, _ => h.elim
  | _ :: _, [], _, _, h, _ => h.elim
  | b :: bs, v :: vs, _, _, h, h' => ⟨h.1, slotsRel_append h.2 h'⟩

theorem slotsRel_one {m : Mem} {b : Blob} {v : View} (h : Shows m b v) : SlotsRel m [some b] [some v] := ⟨h, trivial⟩

theorem slotsRel_map {m : Mem} : ∀ {bs : List Blob} {vs : List View}, AllShow m bs vs → SlotsRel m (bs.map some) (vs.map some)
  | [], [], _ => trivial
  | [], _ :: _, h => h.elim
  | _ :: _, [], h => h.elim
  | b :: bs, v :: vs, h => ⟨h.1, slotsRel_map h.2⟩

theorem slotsRel_slot {m : Mem} : ∀ {bs : List (Option Blob)} {vs : List (Option View)} (i : Nat), SlotsRel m bs vs →
    SlotRel m (slot bs i) (slot vs i)
  | [], [], i, _ => trivial
  | [], _ :: _, _, h => h.elim
  | _ :: _, [], _, h => h.elim
  | b :: bs, v :: vs, 0, h => h.1
  | b :: bs, v :: vs, i + 1, h => by
    have := slotsRel_slot i h.2
    unfold slot at this ⊢
    simpa using this

theorem slotsRel_set {m : Mem} : ∀ {bs : List (Option Blob)} {vs : List (Option View)} (i : Nat) {b : Option Blob} {v : Option View},
    SlotsRel m bs vs → SlotRel m b v → SlotsRel m (bs.set i b) (vs.set i v)
  | [], [], i, _, _, _, _ => trivial
  | [], _ :: _, _, _, _, h, _ => h.elim
  | _ :: _, [], _, _, _, h, _ => h.elim
  | b :: bs, v :: vs, 0, _, _, h, h' => ⟨h', h.2⟩
  | b :: bs, v :: vs, i + 1, _, _, h, h' => ⟨h.1, slotsRel_set i h.2 h'⟩

theorem slot_set_self {β : Type} : ∀ (vs : List (Option β)) (i : Nat) (v : β), slot vs i = some v → vs.set i (some v) = vs
  | [], i, v, h => rfl
  | x :: vs, 0, v, h => by
    have : x = some v := by simpa [slot] using h
    rw [this]; rfl
  | x :: vs, i + 1, v, h => by
    have : vs.set i (some v) = vs := slot_set_self vs i v (by simpa [slot] using h)
    show x :: vs.set i (some v) = _
    rw [this]

/-- The references of the blobs, with one place set apart. -/
theorem count_slot : ∀ (bs : List (Option Blob)) (i : Nat) (b : Blob), slot bs i = some b → ∀ (b' : Option Blob) (a : Nat),
    ((bs.set i b').flatMap slotRefs).count a + b.refs.count a = (bs.flatMap slotRefs).count a + (slotRefs b').count a
  | [], i, b, h, _, _ => by simp [slot] at h
  | x :: bs, 0, b, h, b', a => by
    have : x = some b := by simpa [slot] using h
    subst this
    simp only [List.set_cons_zero, List.flatMap_cons, List.count_append]
    have : slotRefs (some b) = b.refs := rfl
    rw [this]; omega
  | x :: bs, i + 1, b, h, b', a => by
    have := count_slot bs i b (by simpa [slot] using h) b' a
    simp only [List.set_cons_succ, List.flatMap_cons, List.count_append]
    omega

/-- All references of a world. -/
def World.refs {τ κ : Type} (I : Impl τ κ) (w : World τ) : List Nat := w.store.toList.flatMap I.refs ++ w.slots.flatMap slotRefs

/-- The memory world is the plain world. -/
structure WRel {τ σ κ : Type} (I : Impl τ κ) (R : Mem → τ → σ → Prop) (w : World τ) (v : Spec.Blobs.World σ) : Prop where
  inv : Inv w.mem (w.refs I)
  slots : SlotsRel w.mem w.slots v.slots
  store : match w.store, v.store with
    | none, none => True
    | some t, some s => R w.mem t s
    | _, _ => False

theorem mem_slot : ∀ (bs : List (Option Blob)) (i : Nat) (b : Blob), slot bs i = some b → ∀ a ∈ b.refs, a ∈ bs.flatMap slotRefs := by
  intro bs i b h a ha
  unfold slot at h
  rcases e : bs[i]? with _ | x
  · rw [e] at h; cases h
  · rw [e] at h
    have : x = some b := h
    subst this
    exact List.mem_flatMap.2 ⟨some b, List.mem_of_getElem? e, ha⟩

theorem step_ok {τ σ κ : Type} {I : Impl τ κ} {P : Spec.Blobs.Plain σ κ} {R : Mem → τ → σ → Prop} (K : Keeps I P R) (W : Nat)
    {w : World τ} {v : Spec.Blobs.World σ} (h : WRel I R w v) (op : Op κ) :
    ∃ o w', step I W w op = some (o, w') ∧ o = (Spec.Blobs.step P W v op).1 ∧
      match w', (Spec.Blobs.step P W v op).2 with
      | none, none => True
      | some w', some v' => WRel I R w' v'
      | _, _ => False := by
  obtain ⟨hi, hs, ht⟩ := h
  obtain ⟨wst, wsl, m⟩ := w
  obtain ⟨vst, vsl⟩ := v
  dsimp only at hi hs ht
  -- the store does not see changes of the memory of others
  have frame : ∀ m', (∀ a ∈ wst.toList.flatMap I.refs, m'.get a = m.get a) →
      match wst, vst with
      | none, none => True
      | some t, some s => R m' t s
      | _, _ => False := by
    intro m' hg
    cases wst with
    | none => cases vst with
      | none => trivial
      | some s => exact ht
    | some t => cases vst with
      | none => exact ht
      | some s => exact K.frame m m' t s (fun a ha => hg a (by simpa using ha)) ht
  have same : WRel I R ⟨wst, wsl, m⟩ ⟨vst, vsl⟩ := ⟨hi, hs, ht⟩
  have hR : ∀ {a}, a ∈ wst.toList.flatMap I.refs → a ∈ World.refs I ⟨wst, wsl, m⟩ := fun h => List.mem_append_left _ h
  have hS : ∀ {a}, a ∈ wsl.flatMap slotRefs → a ∈ World.refs I ⟨wst, wsl, m⟩ := fun h => List.mem_append_right _ h
  have slots : ∀ i, SlotRel m (slot wsl i) (slot vsl i) := fun i => slotsRel_slot i hs
  cases op with
  | call c =>
    cases wst with
    | none =>
      cases vst with
      | none => exact ⟨.absent, _, rfl, rfl, same⟩
      | some s => exact ht.elim
    | some t =>
      cases vst with
      | none => exact ht.elim
      | some s =>
        obtain ⟨a, t', m', e, ea, eb, hh⟩ := K.step m t s c (wsl.flatMap slotRefs) (hi.of (fun a => by simp [World.refs])) ht
        refine ⟨.ans a.seen, t'.map fun t => ⟨some t, wsl ++ a.blob?.map some, m'⟩, ?_, ?_, ?_⟩
        · show (I.step t c m).map _ = _
          rw [e]; rfl
        · show Seen.ans a.seen = Seen.ans (P s c).1.seen
          rw [ea]
        · show match t'.map _, (P s c).2.map _ with
            | none, none => True
            | some w', some v' => WRel I R w' v'
            | _, _ => False
          cases t' with
          | none =>
            cases e2 : (P s c).2 with
            | none => trivial
            | some s' => rw [e2] at hh; exact hh.elim
          | some t' =>
            cases e2 : (P s c).2 with
            | none => rw [e2] at hh; exact hh.elim
            | some s' =>
              rw [e2] at hh
              obtain ⟨i', r', g'⟩ := hh
              refine ⟨i'.of (fun x => ?_), slotsRel_append (slotsRel_mono hs g') (slotsRel_map eb), r'⟩
              have : ∀ l : List Blob, (l.map some).flatMap slotRefs = l.flatMap Blob.refs := by
                intro l
                rw [List.flatMap_map]; rfl
              simp only [World.refs, Option.toList_some, List.flatMap_cons, List.flatMap_nil, List.append_nil, List.flatMap_append,
                List.count_append, this]
              omega
  | lit d =>
    exact ⟨.done, some ⟨wst, wsl ++ [some (.lit d)], m⟩, rfl, rfl,
      ⟨hi.of (fun a => by simp [World.refs, slotRefs, Blob.refs]), slotsRel_append hs (slotsRel_one ⟨rfl, rfl⟩), ht⟩⟩
  | copy d =>
    obtain ⟨i', s', g'⟩ := copy_ok hi d
    refine ⟨.done, some ⟨wst, wsl ++ [some (Blob.copy m d).1], (Blob.copy m d).2⟩, rfl, rfl,
      ⟨i'.of (fun a => ?_), slotsRel_append (slotsRel_mono hs (fun a ha => g' a (hS ha))) (slotsRel_one s'), frame _ (fun a ha => g' a (hR ha))⟩⟩
    simp only [World.refs, List.flatMap_append, List.flatMap_cons, List.flatMap_nil, List.append_nil, List.count_append]
    have : slotRefs (some (Blob.copy m d).1) = (Blob.copy m d).1.refs := rfl
    rw [this]; omega
  | slice i s e =>
    have hsl := slots i
    cases eb : slot wsl i with
    | none =>
      cases ev : slot vsl i with
      | none => exact ⟨.absent, some ⟨wst, wsl, m⟩, by simp only [step, eb], by simp only [Spec.Blobs.step, ev], by simp only [Spec.Blobs.step, ev]; exact same⟩
      | some v => rw [eb, ev] at hsl; exact hsl.elim
    | some b =>
      cases ev : slot vsl i with
      | none => rw [eb, ev] at hsl; exact hsl.elim
      | some v =>
        rw [eb, ev] at hsl
        have hlen : b.len = Spec.Blobs.size v := hsl.2
        cases er : sliceRange W b.len s e with
        | none =>
          have er' := er
          rw [hlen] at er'
          exact ⟨.panic, some ⟨wst, wsl, m⟩, by simp only [step, eb, er], by simp only [Spec.Blobs.step, ev, er'], by simp only [Spec.Blobs.step, ev, er']; exact same⟩
        | some r =>
          have er' := er
          rw [hlen] at er'
          obtain ⟨h1, h2⟩ := sliceRange_ok er
          obtain ⟨b', m', e', i', s', g'⟩ := sub_ok hi (fun a ha => hS (mem_slot _ _ _ eb a ha)) hsl h1 h2
          refine ⟨.done, some ⟨wst, wsl ++ [some b'], m'⟩, by simp only [step, eb, er, e']; rfl, by simp only [Spec.Blobs.step, ev, er'], ?_⟩
          simp only [Spec.Blobs.step, ev, er']
          refine ⟨i'.of (fun a => ?_), slotsRel_append (slotsRel_mono hs (fun a _ => g' a)) (slotsRel_one s'), frame _ (fun a _ => g' a)⟩
          simp only [World.refs, List.flatMap_append, List.flatMap_cons, List.flatMap_nil, List.append_nil, List.count_append]
          have : slotRefs (some b') = b'.refs := rfl
          rw [this]; omega
  | clone i =>
    have hsl := slots i
    cases eb : slot wsl i with
    | none =>
      cases ev : slot vsl i with
      | none => exact ⟨.absent, some ⟨wst, wsl, m⟩, by simp only [step, eb], by simp only [Spec.Blobs.step, ev], by simp only [Spec.Blobs.step, ev]; exact same⟩
      | some v => rw [eb, ev] at hsl; exact hsl.elim
    | some b =>
      cases ev : slot vsl i with
      | none => rw [eb, ev] at hsl; exact hsl.elim
      | some v =>
        rw [eb, ev] at hsl
        obtain ⟨m', e', i', g'⟩ := clone_ok hi (fun a ha => hS (mem_slot _ _ _ eb a ha))
        refine ⟨.done, some ⟨wst, wsl ++ [some b], m'⟩, by simp only [step, eb, e']; rfl, by simp only [Spec.Blobs.step, ev], ?_⟩
        simp only [Spec.Blobs.step, ev]
        refine ⟨i'.of (fun a => ?_), slotsRel_append (slotsRel_mono hs (fun a _ => g' a)) (slotsRel_one (Shows.mono hsl (fun a _ => g' a))), frame _ (fun a _ => g' a)⟩
        simp only [World.refs, List.flatMap_append, List.flatMap_cons, List.flatMap_nil, List.append_nil, List.count_append]
        have : slotRefs (some b) = b.refs := rfl
        rw [this]; omega
  | toOwned i =>
    have hsl := slots i
    cases eb : slot wsl i with
    | none =>
      cases ev : slot vsl i with
      | none => exact ⟨.absent, some ⟨wst, wsl, m⟩, by simp only [step, eb], by simp only [Spec.Blobs.step, ev], by simp only [Spec.Blobs.step, ev]; exact same⟩
      | some v => rw [eb, ev] at hsl; exact hsl.elim
    | some b =>
      cases ev : slot vsl i with
      | none => rw [eb, ev] at hsl; exact hsl.elim
      | some v =>
        rw [eb, ev] at hsl
        refine ⟨.done, some ⟨wst, wsl.set i (some (b.toOwned m).1), (b.toOwned m).2⟩, by simp only [step, eb], by simp only [Spec.Blobs.step, ev], ?_⟩
        simp only [Spec.Blobs.step, ev]
        rw [← slot_set_self vsl i v ev]
        cases b with
        | part a st l =>
          show WRel I R ⟨wst, wsl.set i (some (.part a st l)), m⟩ _
          rw [slot_set_self wsl i _ eb, slot_set_self vsl i v ev]
          exact same
        | lit bs =>
          obtain ⟨i', s', g'⟩ := copy_ok hi bs
          have hv : v = .own bs := by
            have := hsl.1
            cases this; rfl
          refine ⟨i'.of (fun a => ?_), slotsRel_set i (slotsRel_mono hs (fun a ha => g' a (hS ha))) (hv ▸ s'), frame _ (fun a ha => g' a (hR ha))⟩
          have := count_slot wsl i (.lit bs) eb (some (Blob.copy m bs).1) a
          simp only [World.refs, List.count_append]
          have e1 : slotRefs (some (Blob.copy m bs).1) = (Blob.copy m bs).1.refs := rfl
          have e2 : (Blob.lit bs).refs.count a = 0 := rfl
          have e3 : ((Blob.lit bs).toOwned m).1 = (Blob.copy m bs).1 := rfl
          rw [e3]
          rw [e1, e2] at this
          omega
  | drop i =>
    have hsl := slots i
    cases eb : slot wsl i with
    | none =>
      cases ev : slot vsl i with
      | none => exact ⟨.absent, some ⟨wst, wsl, m⟩, by simp only [step, eb], by simp only [Spec.Blobs.step, ev], by simp only [Spec.Blobs.step, ev]; exact same⟩
      | some v => rw [eb, ev] at hsl; exact hsl.elim
    | some b =>
      cases ev : slot vsl i with
      | none => rw [eb, ev] at hsl; exact hsl.elim
      | some v =>
        have hc := fun a => count_slot wsl i b eb none a
        obtain ⟨m', e', i', g'⟩ := drop_ok (b := b) (R := World.refs I ⟨wst, wsl.set i none, m⟩) (hi.of (fun a => by
          have := hc a
          simp only [World.refs, List.count_append]
          have e1 : (slotRefs none).count a = 0 := rfl
          rw [e1] at this
          omega))
        refine ⟨.done, some ⟨wst, wsl.set i none, m'⟩, by simp only [step, eb, e']; rfl, by simp only [Spec.Blobs.step, ev], ?_⟩
        simp only [Spec.Blobs.step, ev]
        have hset : SlotsRel m (wsl.set i none) (vsl.set i none) := slotsRel_set i hs trivial
        exact ⟨i', slotsRel_mono hset (fun a ha => g' a (List.mem_append_right _ ha)), frame _ (fun a ha => g' a (List.mem_append_left _ ha))⟩
  | look i =>
    have hsl := slots i
    cases eb : slot wsl i with
    | none =>
      cases ev : slot vsl i with
      | none => exact ⟨.absent, some ⟨wst, wsl, m⟩, by simp only [step, eb], by simp only [Spec.Blobs.step, ev], by simp only [Spec.Blobs.step, ev]; exact same⟩
      | some v => rw [eb, ev] at hsl; exact hsl.elim
    | some b =>
      cases ev : slot vsl i with
      | none => rw [eb, ev] at hsl; exact hsl.elim
      | some v =>
        rw [eb, ev] at hsl
        exact ⟨.sees v, some ⟨wst, wsl, m⟩, by simp only [step, eb, hsl.1]; rfl, by simp only [Spec.Blobs.step, ev], by simp only [Spec.Blobs.step, ev]; exact same⟩
  | close =>
    cases wst with
    | none =>
      cases vst with
      | none => exact ⟨.absent, _, rfl, rfl, same⟩
      | some s => exact ht.elim
    | some t =>
      cases vst with
      | none => exact ht.elim
      | some s =>
        obtain ⟨m', e', i', g'⟩ := decs_ok (I.refs t) (R := wsl.flatMap slotRefs) (hi.of (fun a => by simp [World.refs]))
        refine ⟨.done, some ⟨none, wsl, m'⟩, by simp only [step, e']; rfl, rfl, ?_⟩
        exact ⟨i'.of (fun a => by simp [World.refs]), slotsRel_mono hs g', trivial⟩

theorem run_ok {τ σ κ : Type} {I : Impl τ κ} {P : Spec.Blobs.Plain σ κ} {R : Mem → τ → σ → Prop} (K : Keeps I P R) (W : Nat) :
    ∀ (ops : List (Op κ)) {w : World τ} {v : Spec.Blobs.World σ}, WRel I R w v →
      ∃ w', run I W w ops = some (Spec.Blobs.run P W v ops, w') ∧ ∀ x, w' = some x → Inv x.mem (x.refs I)
  | [], w, v, h => ⟨some w, rfl, fun x hx => by cases hx; exact h.inv⟩
  | op :: ops, w, v, h => by
    obtain ⟨o, w', e, eo, hh⟩ := step_ok K W h op
    unfold run Spec.Blobs.run
    rw [e]
    rcases e2 : Spec.Blobs.step P W v op with ⟨o', v'⟩
    rw [e2] at eo hh
    have eo : o = o' := eo
    subst eo
    cases w' with
    | none =>
      cases v' with
      | none => exact ⟨none, rfl, fun x hx => by cases hx⟩
      | some v' => exact hh.elim
    | some w' =>
      cases v' with
      | none => exact hh.elim
      | some v' =>
        obtain ⟨w2, e3, h3⟩ := run_ok K W ops hh
        exact ⟨w2, by dsimp only; rw [e3]; rfl, h3⟩

theorem tidy_of {τ κ : Type} {I : Impl τ κ} {x : World τ} (h : Inv x.mem (x.refs I)) : Spec.Blobs.Tidy I x := by
  intro a c y e
  have hc := h.cnt a
  unfold Mem.cnt at hc
  rw [e] at hc
  have hc : c = (x.refs I).count a := hc
  refine ⟨?_, hc⟩
  rcases Nat.eq_zero_or_pos c with h0 | h0
  · subst h0; exact (h.pos a y e).elim
  · exact h0

theorem freed_of {τ κ : Type} {I : Impl τ κ} {x : World τ} (h : Spec.Blobs.Tidy I x) (h1 : x.store = none) (h2 : ∀ b ∈ x.slots, b = none) :
    Spec.Blobs.AllFreed x.mem := by
  intro a
  unfold Mem.get
  split
  · rename_i c y e
    obtain ⟨hp, hc⟩ := h a c y e
    rw [h1] at hc
    have : x.slots.flatMap (fun b => (b.map Blob.refs).getD []) = [] := by
      rw [List.flatMap_eq_nil_iff]
      intro b hb
      rw [h2 b hb]; rfl
    rw [this] at hc
    simp at hc
    omega
  · rfl

end Radix.Blobs
