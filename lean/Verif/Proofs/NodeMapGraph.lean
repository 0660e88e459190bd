import Verif.Proofs.NodeMapQuads
import Verif.Proofs.Canonical
import Verif.Proofs.MapsShow
/-!
# How graph entries of a node map come about
-/

namespace JsonLd
open Spec Props

/-! ## Updates -/

/-- Values inserted into a set are in it, up to equality; it has no repetition and nothing else is added. -/
theorem foldl_setInsert_sound {l acc : List Obj} {x : Obj} (h : x ∈ l.foldl (setInsert Obj.eq) acc) :
    x ∈ acc ∨ x ∈ l := by
  induction l generalizing acc with
  | nil => exact .inl h
  | cons y l ih =>
    rcases ih h with h | h
    · rcases mem_setInsert h with h | rfl
      · exact .inl h
      · exact .inr List.mem_cons_self
    · exact .inr (List.mem_cons_of_mem _ h)

theorem foldl_setInsert_once {l acc : List Obj} (h : acc.Pairwise fun a b => b.eq a = false) :
    (l.foldl (setInsert Obj.eq) acc).Pairwise fun a b => b.eq a = false := by
  induction l generalizing acc with
  | nil => exact h
  | cons z l ih =>
    refine ih ?_
    simp only [setInsert]
    split
    · exact h
    · rename_i hn
      rw [List.pairwise_append]
      refine ⟨h, List.pairwise_singleton _ _, fun a ha b hb => ?_⟩
      rw [List.mem_singleton.1 hb]
      by_contra hc
      exact hn (List.any_eq_true.2 ⟨a, ha, by simpa using hc⟩)

theorem foldl_setInsert_covers {l acc : List Obj} {x : Obj} (hr : x.eq x = true) (h : x ∈ l) :
    ∃ y ∈ l.foldl (setInsert Obj.eq) acc, x.eq y = true := by
  induction l generalizing acc with
  | nil => cases h
  | cons z l ih =>
    rcases List.mem_cons.1 h with rfl | h
    · rw [List.foldl_cons]
      by_cases ha : acc.any x.eq = true
      · obtain ⟨y, hy, hxy⟩ := List.any_eq_true.1 ha
        exact ⟨y, foldl_setInsert_mono _ _ (setInsert_mono hy), hxy⟩
      · refine ⟨x, foldl_setInsert_mono _ _ ?_, hr⟩
        simp only [setInsert, ha, Bool.false_eq_true, if_false]
        exact List.mem_append_right _ (List.mem_singleton.2 rfl)
    · exact ih h

/-- What a graph entry is after the updates `es`. -/
structure EntryOf (g : Option Id) (x : Id) (es : List Ev) (gr : Option (List Obj)) : Prop where
  some : gr.isSome = true ↔ ∃ os, Ev.gadd g x os ∈ es
  sound : ∀ l, gr = .some l → ∀ o ∈ l, ∃ os, Ev.gadd g x os ∈ es ∧ o ∈ os
  complete : ∀ l, gr = .some l → ∀ os, Ev.gadd g x os ∈ es → ∀ o ∈ os, ∃ o' ∈ l, Same o o'
  once : ∀ l, gr = .some l → l.Pairwise fun a b => b.eq a = false

theorem EntryOf.other {g : Option Id} {x : Id} {es : List Ev} {gr : Option (List Obj)} (h : EntryOf g x es gr) {e : Ev}
    (he : ∀ os, e ≠ .gadd g x os) : EntryOf g x (es ++ [e]) gr := by
  have hm : ∀ os, Ev.gadd g x os ∈ es ++ [e] ↔ Ev.gadd g x os ∈ es := fun os => by
    simp [(he os).symm]
  refine ⟨?_, ?_, ?_, h.once⟩
  · simp only [hm]; exact h.some
  · simp only [hm]; exact h.sound
  · simp only [hm]; exact h.complete

theorem EntryOf.step {g : Option Id} {x : Id} {es : List Ev} {n : Node} (h : EntryOf g x es n.graph) {os : List Obj}
    (hw : ∀ vs, Ev.gadd g x vs ∈ es → ∀ o ∈ vs, o.WF) (hos : ∀ o ∈ os, o.WF) : EntryOf g x (es ++ [.gadd g x os]) (extendGraphEntry os n).graph := by
  have hcol : ∀ o ∈ os, ∃ o' ∈ setCollect Obj.eq os, Same o o' := fun o ho => by
    obtain ⟨y, hy, he⟩ := setCollect_covers (eq := Obj.eq) (Obj.eqOk (hos o ho)).1 ho
    exact ⟨y, hy, hos o ho, hos y (setCollect_mem hy), he⟩
  cases hg : n.graph with
  | none =>
    have hnone : ∀ vs, Ev.gadd g x vs ∉ es := fun vs hv => by
      have := h.some.2 ⟨vs, hv⟩
      rw [hg] at this
      cases this
    have e : (extendGraphEntry os n).graph = .some (setCollect Obj.eq os) := by
      obtain ⟨i, id, ty, gr, inc, ps, rv⟩ := n
      cases hg
      rfl
    rw [e]
    refine ⟨⟨fun _ => ⟨os, by simp⟩, fun _ => rfl⟩, ?_, ?_, ?_⟩
    · rintro l ⟨⟩ o ho
      exact ⟨os, by simp, setCollect_mem ho⟩
    · rintro l ⟨⟩ vs hv o ho
      simp only [List.mem_append, hnone, List.mem_singleton, Ev.gadd.injEq, true_and, false_or] at hv
      subst hv
      exact hcol o ho
    · rintro l ⟨⟩
      exact setCollect_pairwise os
  | some l0 =>
    have e : (extendGraphEntry os n).graph = .some ((setCollect Obj.eq os).foldl (setInsert Obj.eq) l0) := by
      obtain ⟨i, id, ty, gr, inc, ps, rv⟩ := n
      cases hg
      rfl
    rw [e]
    refine ⟨⟨fun _ => ⟨os, by simp⟩, fun _ => rfl⟩, ?_, ?_, ?_⟩
    · rintro l ⟨⟩ o ho
      rcases foldl_setInsert_sound ho with ho | ho
      · obtain ⟨vs, hv, hov⟩ := h.sound l0 hg o ho
        exact ⟨vs, List.mem_append_left _ hv, hov⟩
      · exact ⟨os, by simp, setCollect_mem ho⟩
    · rintro l ⟨⟩ vs hv o ho
      rcases List.mem_append.1 hv with hv | hv
      · obtain ⟨o', ho', hs⟩ := h.complete l0 hg vs hv o ho
        exact ⟨o', foldl_setInsert_mono _ _ ho', hs⟩
      · simp only [List.mem_singleton, Ev.gadd.injEq, true_and] at hv
        subst hv
        obtain ⟨y, hy, hs⟩ := hcol o ho
        obtain ⟨z, hz, he⟩ := foldl_setInsert_covers (acc := l0) (Obj.eqOk hs.wf).1 hy
        refine ⟨z, hz, hs.trans ⟨hs.wf, ?_, he⟩⟩
        rcases foldl_setInsert_sound hz with hz | hz
        · obtain ⟨ws, hv, hov⟩ := h.sound l0 hg z hz
          exact hw ws hv z hov
        · exact hos z (setCollect_mem hz)
    · rintro l ⟨⟩
      exact foldl_setInsert_once (h.once l0 hg)

theorem EntryOf.fold {g : Option Id} {x : Id} (es : List Ev) {pre : List Ev} {n : Node} (h : EntryOf g x pre n.graph)
    (hw : ∀ vs, Ev.gadd g x vs ∈ pre ++ es → ∀ o ∈ vs, o.WF) :
    EntryOf g x (pre ++ es) (es.foldl (Again.nstep g x) n).graph := by
  induction es generalizing pre n with
  | nil => simpa using h
  | cons e es ih =>
    rw [List.foldl_cons]
    rw [show pre ++ e :: es = (pre ++ [e]) ++ es by simp] at hw ⊢
    refine ih ?_ hw
    have same : ∀ n' : Node, n'.graph = n.graph → (∀ os, e ≠ .gadd g x os) → EntryOf g x (pre ++ [e]) n'.graph :=
      fun n' hn he => by rw [hn]; exact h.other he
    cases e with
    | declare g' x' j =>
      refine same _ ?_ (by simp)
      obtain ⟨i, id, ty, gr, inc, ps, rv⟩ := n
      simp only [Again.nstep]
      split
      · cases i <;> cases j <;> rfl
      · rfl
    | types g' x' ts =>
      refine same _ ?_ (by simp)
      cases n
      simp only [Again.nstep]
      split <;> rfl
    | decl => exact same _ rfl (by simp)
    | props g' x' k os =>
      refine same _ ?_ (by simp)
      cases n
      simp only [Again.nstep]
      split <;> rfl
    | gadd g' x' os =>
      simp only [Again.nstep]
      split
      · rename_i hgx
        obtain ⟨rfl, rfl⟩ := hgx
        exact h.step (fun vs hv => hw vs (by simp [hv])) (hw os (by simp))
      · rename_i hgx
        exact h.other (by rintro os ⟨⟩; exact hgx ⟨rfl, rfl⟩)

/-- The graph entries of a node map. -/
theorem nodeMap_entry {gen : Nat → Id} {d : Doc} (h : Relabelable gen d) {n : Nat} {m : NodeMap}
    (hm : d.nodeMap gen n = .ok m) {g : Option Id} {x : Id} {p : Node} (hx : m.get g x = some p) :
    EntryOf g x (osEvs none (d.relabel gen n).1) p.graph := by
  rw [nodeMap_eq, pwalk_relabel gen h.injective d h.wf h.fresh n] at hm
  have := Again.applyAll_norm mapInv_empty.keys hm g x
  rw [show Again.norm m g x = p by simp [Again.norm, hx]] at this
  rw [this]
  refine EntryOf.fold (pre := []) _ ?_ ?_
  · rw [show Again.norm ⟨[], []⟩ g x = Node.withId x none by cases g <;> rfl]
    exact ⟨⟨nofun, fun ⟨_, h⟩ => by cases h⟩, nofun, nofun, nofun⟩
  · intro os hos o ho
    obtain ⟨q, l, -, -, -, rfl⟩ := doc_evs_sound (allNamed h n) _ hos
    rw [references_eq] at ho
    obtain ⟨o', -, rfl⟩ := List.mem_map.1 ho
    exact reference_WF o'

theorem ev_gadd {d : Doc} {g : Option Id} {n : Node} {x : Id} (h : Occurs d g (.node n)) (hx : n.id = some x) {l : List Obj}
    (ht : n.graph = some l) : Ev.gadd g x (references l) ∈ osEvs none d := by
  apply occurs_evs h
  obtain ⟨i, id, ty, gr, inc, ps, rv⟩ := n
  simp only [Node.id, Node.graph] at hx ht
  subst hx; subst ht
  simp [nEvs, grEvs, rid]

end JsonLd
