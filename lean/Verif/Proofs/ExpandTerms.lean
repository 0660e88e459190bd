import Verif.Proofs.ExpandMaps
/-!
# The values of a term: lists, sets, graphs; objects entry by entry
-/

namespace JsonLd
open Spec Props

section
variable {E : XEnv} {c : ACtx}

theorem propValue_undefined {R : XRec} {key : Str} {v : Json} :
    propValue E R c none key v = propValue E R c (some {}) key v := by
  cases v <;> rfl

theorem addProp_undefined {p : Id} {y : Expanded} {st : XState} : addProp none p y st = addProp (some {}) p y st := rfl

theorem single_defined {key : Str} {p : Id} (hp : IsProperty E c key p) {d : TermDef} (hd : Defined c key d)
    {prop : Option Str} {fm : Bool} (hr : fm = true ∨ c.previous = none)
    (hs : ∀ k d, prop = some k → c.get k = some d → d.context = none) {v : Json} {x : Expanded} :
    expandElement E c prop (.obj [(key, v)]) fm = .ok x ↔
      ∃ y, propValue E (unlimited E) c (some d) key v = .ok y ∧
        (addProp (some d) p (wrapGraph d.container (wrapList d.container y))
          ⟨.mk none none none none none [] none, false⟩).map (nodeResult prop) = .ok x := by
  cases hd with
  | term _ hd => exact single_values hp hd hr hs
  | undefined hd =>
    rw [single_prop hp hr hs]
    unfold propEntry
    rw [hd]
    simp only [propValue_undefined, addProp_undefined]
    constructor
    · intro h
      obtain ⟨st, h1, h2⟩ := exMap_ok h
      obtain ⟨y, h3, h4⟩ := exBind_ok h1
      exact ⟨y, h3, exMap_iff.2 ⟨st, h4, h2⟩⟩
    · rintro ⟨y, h3, h⟩
      obtain ⟨st, h4, h2⟩ := exMap_ok h
      exact exMap_iff.2 ⟨st, exBind_iff.2 ⟨y, h3, h4⟩, h2⟩

theorem kept_iff {d : TermDef} {p : Id} {y x : Expanded} :
    (addProp (some d) p y ⟨.mk none none none none none [] none, false⟩).map (nodeResult none) = .ok x ↔
      Kept d p y x := by
  cases y with
  | null =>
    constructor
    · intro h; cases h; exact .null
    · intro h; cases h; rfl
  | object o =>
    rw [add_single rfl]
    exact ⟨fun h => .object o x h, fun h => by cases h; assumption⟩
  | array os =>
    rw [add_single rfl]
    exact ⟨fun h => .array os x h, fun h => by cases h; assumption⟩

theorem itemsOf_iff {prop : Option Str} {fm : Bool} {l : List Json} {os : List Obj} :
    xItems (unlimited E) c prop fm l = .ok os ↔ ItemsOf E c prop fm l os := by
  unfold xItems ItemsOf
  induction l generalizing os with
  | nil =>
    constructor
    · intro h; cases h; exact ⟨[], .nil, rfl⟩
    · rintro ⟨ys, h, rfl⟩; cases h; rfl
  | cons j l ih =>
    rw [collectM_cons]
    constructor
    · rintro ⟨a, b, ha, hb, rfl⟩
      obtain ⟨y, hy, rfl⟩ := exMap_ok ha
      obtain ⟨ys, h1, rfl⟩ := ih.1 hb
      exact ⟨y :: ys, .cons hy h1, rfl⟩
    · rintro ⟨ys, h, rfl⟩
      cases h with
      | cons h1 h2 => exact ⟨_, _, exMap_iff.2 ⟨_, h1, rfl⟩, ih.2 ⟨_, h2, rfl⟩, rfl⟩

/-- The entries of an object whose keys are properties. -/
theorem propKeys_of {m : List (Str × Json)} (h : PropertyKeys E c m) : ∃ es, PropKeys E c m es ∧
    ∀ e ∈ es, ∃ p, e.term = .id p ∧ IsProperty E c e.key p := by
  induction m with
  | nil => exact ⟨[], ⟨rfl, by simp, by simp⟩, by simp⟩
  | cons e m ih =>
    obtain ⟨es, ⟨h1, h2, h3⟩, h4⟩ := ih fun e he => h e (by simp [he])
    obtain ⟨p, hp⟩ := h e (by simp)
    refine ⟨⟨e.1, .id p, e.2⟩ :: es, ⟨by rw [h1]; rfl, ?_, ?_⟩, ?_⟩
    · intro x hx
      rcases List.mem_cons.1 hx with rfl | hx
      · exact xKey_iff.2 hp.expands
      · exact h2 x hx
    · intro x hx
      rcases List.mem_cons.1 hx with rfl | hx
      · exact ⟨p, rfl⟩
      · exact h3 x hx
    · intro x hx
      rcases List.mem_cons.1 hx with rfl | hx
      · exact ⟨p, rfl, hp⟩
      · exact h4 x hx

/-- A node with nothing but properties and reverse properties. -/
def PropNode (st : XState) : Prop := ∃ ps rv, st = ⟨.mk none none none none none ps rv, false⟩

theorem addProp_shape {d : Option TermDef} {p : Id} {y : Expanded} {st st' : XState} (h : PropNode st)
    (ha : addProp d p y st = .ok st') : PropNode st' := by
  obtain ⟨ps, rv, rfl⟩ := h
  unfold addProp at ha
  split at ha
  · cases ha; exact ⟨_, _, rfl⟩
  · split at ha
    · obtain ⟨ns, _, rfl⟩ := exMap_ok ha
      exact ⟨_, _, rfl⟩
    · cases ha; exact ⟨_, _, rfl⟩

theorem propEntry_shape {R : XRec} {key : Str} {p : Id} {v : Json} {st st' : XState} (h : PropNode st)
    (ha : propEntry E R c key p v st = .ok st') : PropNode st' := by
  unfold propEntry at ha
  obtain ⟨y, _, ha⟩ := exBind_ok ha
  exact addProp_shape h ha

theorem fold_shape {es : List XEntry} (hk : ∀ e ∈ es, ∃ p, e.term = .id p ∧ IsProperty E c e.key p) {tsc : ACtx}
    {prop : Option Str} {st st' : XState} (h : PropNode st)
    (ha : es.foldlM (entryStep E (unlimited E) c tsc prop) st = .ok st') : PropNode st' := by
  induction es generalizing st with
  | nil => cases ha; exact h
  | cons e es ih =>
    rw [List.foldlM_cons] at ha
    obtain ⟨st1, h1, h2⟩ := exBind_ok ha
    obtain ⟨p, hp, hp'⟩ := hk e (by simp)
    obtain ⟨k, t, v⟩ := e
    subst hp
    rw [step_prop hp'] at h1
    exact ih (fun e he => hk e (by simp [he])) (propEntry_shape h h1) h2

theorem addProp_together {d : Option TermDef} {p : Id} {y : Expanded} {st st' : XState} (h : PropNode st) :
    addProp d p y st = .ok st' ↔ ∃ st1,
      addProp d p y ⟨.mk none none none none none [] none, false⟩ = .ok st1 ∧
        PutTogether st.node st1.node st'.node ∧ PropNode st' := by
  constructor
  · intro ha
    refine (fun hs => ?_) (addProp_shape h ha)
    obtain ⟨ps, rv, rfl⟩ := h
    unfold addProp at ha ⊢
    split at ha
    · rename_i hy
      cases ha
      refine ⟨_, by rw [if_pos hy], ?_, hs⟩
      exact PutTogether.mk ps [] rv none
    · rename_i hy
      simp only [if_neg hy]
      split at ha
      · rename_i hr
        obtain ⟨ns, h1, rfl⟩ := exMap_ok ha
        refine ⟨_, by rw [if_pos hr]; exact exMap_iff.2 ⟨ns, h1, rfl⟩, ?_, hs⟩
        exact PutTogether.mk ps [] rv (some [(p, ns)])
      · rename_i hr
        cases ha
        refine ⟨_, by rw [if_neg hr], ?_, hs⟩
        exact PutTogether.mk ps [(p, y.toList)] rv none
  · rintro ⟨st1, h1, h2, h3⟩
    obtain ⟨ps, rv, rfl⟩ := h
    obtain ⟨ps', rv', rfl⟩ := h3
    unfold addProp at h1 ⊢
    split at h1
    · rename_i hy
      cases h1
      rw [if_pos hy]
      cases h2
      rfl
    · rename_i hy
      simp only [if_neg hy]
      split at h1
      · rename_i hr
        obtain ⟨ns, h1', rfl⟩ := exMap_ok h1
        rw [if_pos hr]
        refine exMap_iff.2 ⟨ns, h1', ?_⟩
        cases h2
        rfl
      · rename_i hr
        cases h1
        rw [if_neg hr]
        cases h2
        rfl

end

end JsonLd
