import Verif.Proofs.SerTerm
import Verif.Proofs.Relabel
import Verif.Proofs.DocJsonRead
import Verif.Spec.Ser
/-!
# What a document built from quads states
-/

namespace JsonLd
open Spec

section
variable {R : Type} (I : Interp R)

/-! ## Names -/

theorem idOf_of_name {r : R} {i : Id} (h : Name I r i) : idOf I r = some i := by
  cases h with
  | iri h1 h2 => simp [idOf, h1]
  | blank h1 h2 => simp [idOf, h1, h2]

theorem name_of_idOf {r : R} {i j : Id} (h : Name I r i) (hj : idOf I r = some j) : Name I r j := by
  rw [idOf_of_name I h] at hj
  exact Option.some.inj hj ▸ h

theorem name_unique {r : R} {i j : Id} (h : Name I r i) (h' : Name I r j) : i = j := by
  have := idOf_of_name I h
  rw [idOf_of_name I h'] at this
  exact (Option.some.inj this).symm

theorem idOf_lit {r : R} {text : Str} {ty : LitType} (h : IsLit I r text ty) : idOf I r = none := by
  simp [idOf, h.1, h.2.1]

theorem name_not_lit {r : R} {i : Id} {text : Str} {ty : LitType} (h : Name I r i) :
    ¬ IsLit I r text ty := by
  intro h'
  have := idOf_of_name I h
  rw [idOf_lit I h'] at this
  cases this

theorem rdfNs_ne1 : rdfNs "first" ≠ rdfNs "type" := by decide
theorem rdfNs_ne2 : rdfNs "rest" ≠ rdfNs "type" := by decide
theorem rdfNs_ne3 : rdfNs "rest" ≠ rdfNs "first" := by decide

theorem rdfProperty_type {p : R} {i : Id} (h : Name I p i) :
    rdfProperty I p = some .type ↔ i = rdfType := by
  cases h with
  | @iri i h1 h2 =>
    simp only [rdfProperty, h1, List.findSome?_cons, List.findSome?_nil, rdfType, Id.iri.injEq]
    by_cases c1 : i = rdfNs "type"
    · simp [c1]
    · by_cases c2 : i = rdfNs "first"
      · subst c2
        simp [rdfNs_ne1]
      · by_cases c3 : i = rdfNs "rest"
        · subst c3
          simp [rdfNs_ne2, rdfNs_ne3]
        · simp [c1, c2, c3]
  | blank h1 h2 => simp [rdfProperty, h1, rdfType]

theorem rdfProperty_first {p : R} {i : Id} (h : Name I p i) :
    rdfProperty I p = some .first ↔ i = rdfFirst := by
  cases h with
  | @iri i h1 h2 =>
    simp only [rdfProperty, h1, List.findSome?_cons, List.findSome?_nil, rdfFirst, Id.iri.injEq]
    by_cases c1 : i = rdfNs "type"
    · subst c1
      simp [rdfNs_ne1.symm]
    · by_cases c2 : i = rdfNs "first"
      · subst c2
        simp [rdfNs_ne1]
      · by_cases c3 : i = rdfNs "rest"
        · subst c3
          simp [rdfNs_ne2, rdfNs_ne3]
        · simp [c1, c2, c3]
  | blank h1 h2 => simp [rdfProperty, h1, rdfFirst]

theorem rdfProperty_rest {p : R} {i : Id} (h : Name I p i) :
    rdfProperty I p = some .rest ↔ i = rdfRest := by
  cases h with
  | @iri i h1 h2 =>
    simp only [rdfProperty, h1, List.findSome?_cons, List.findSome?_nil, rdfRest, Id.iri.injEq]
    by_cases c1 : i = rdfNs "type"
    · subst c1
      simp [rdfNs_ne2.symm]
    · by_cases c2 : i = rdfNs "first"
      · subst c2
        simp [rdfNs_ne1, rdfNs_ne3.symm]
      · by_cases c3 : i = rdfNs "rest"
        · subst c3
          simp [rdfNs_ne2, rdfNs_ne3]
        · simp [c1, c2, c3]
  | blank h1 h2 => simp [rdfProperty, h1, rdfRest]

/-- A named resource recognised as `rdf:List` has this name. -/
theorem rdfTypeOf_list {r : R} {i : Id} (h : Name I r i) (ht : rdfTypeOf I r = .list) :
    i = .iri (rdfNs "List") := by
  unfold rdfTypeOf at ht
  split at ht
  · rename_i hm
    cases h with
    | iri h1 h2 =>
      rw [h1, List.mem_singleton] at hm
      rw [hm]
    | blank h1 h2 => rw [h1] at hm; cases hm
  · cases ht

/-! ## Literals -/

theorem litValue_means {text : Str} {ty : LitType} {v : Value} (h : litValue I text ty = .ok v) :
    LitMeans I text ty v := by
  cases ty with
  | lang tag =>
    simp only [litValue, Except.ok.injEq] at h
    subst h
    exact .lang
  | any ty =>
    unfold litValue at h
    dsimp only at h
    by_cases c1 : ty = rdfNs "JSON"
    · subst c1
      simp only [if_true] at h
      cases hj : I.parseJson text with
      | none => rw [hj] at h; cases h
      | some j =>
        rw [hj] at h
        cases h
        exact .json hj
    rw [if_neg c1] at h
    by_cases c2 : ty = xsdNs "boolean"
    · subst c2
      rw [if_pos rfl] at h
      by_cases t1 : text = ['t', 'r', 'u', 'e'] ∨ text = ['1']
      · rw [if_pos t1] at h
        cases h
        exact .true t1
      · rw [if_neg t1] at h
        by_cases t2 : text = ['f', 'a', 'l', 's', 'e'] ∨ text = ['0']
        · rw [if_pos t2] at h
          cases h
          exact .false t2
        · rw [if_neg t2] at h
          cases h
    rw [if_neg c2] at h
    by_cases c3 : ty = xsdNs "integer" ∨ ty = xsdNs "double"
    · rw [if_pos c3] at h
      cases hn : I.parseNumber text with
      | none => rw [hn] at h; cases h
      | some n =>
        rw [hn] at h
        cases h
        exact .number c3 hn
    rw [if_neg c3] at h
    by_cases c4 : ty = xsdNs "string"
    · subst c4
      rw [if_pos rfl] at h
      cases h
      exact .string
    · rw [if_neg c4] at h
      cases h
      exact .other c1 c2 (fun e => c3 (.inl e)) (fun e => c3 (.inr e)) c4

/-- A reference stands for its resource. -/
theorem renderRef_stands {r : R} {x : Obj} (h : (∃ i, Name I r i) ∨ ∃ text ty, IsLit I r text ty)
    (hx : renderRef I r = .ok x) : Stands I r (.obj x) := by
  unfold renderRef at hx
  rcases h with ⟨i, h⟩ | ⟨text, ty, h⟩
  · rw [idOf_of_name I h] at hx
    cases hx
    exact .node h rfl
  · rw [idOf_lit I h, h.2.2] at hx
    dsimp only at hx
    cases hv : litValue I text ty with
    | error e => rw [hv] at hx; cases hx
    | ok v =>
      rw [hv] at hx
      cases hx
      exact .value h (litValue_means I hv)

/-! ## Values of properties -/

/-- The value is one of the property. -/
def HasVal (ps : List (Id × List Obj)) (i : Id) (x : Obj) : Prop := ∃ l, (i, l) ∈ ps ∧ x ∈ l

theorem hasVal_insertAll {k : Id} {vs : List Obj} {ps : List (Id × List Obj)} {i : Id} {x : Obj} :
    HasVal (insertAll k vs ps) i x ↔ HasVal ps i x ∨ (k = i ∧ x ∈ vs) := by
  induction ps with
  | nil =>
    simp only [HasVal, insertAll, List.mem_singleton, Prod.mk.injEq, List.not_mem_nil, false_and,
      exists_false, false_or]
    constructor
    · rintro ⟨l, ⟨rfl, rfl⟩, h⟩; exact ⟨rfl, h⟩
    · rintro ⟨rfl, h⟩; exact ⟨_, ⟨rfl, rfl⟩, h⟩
  | cons p ps ih =>
    obtain ⟨k', ws⟩ := p
    have hc : ∀ (w : List Obj) (l : List (Id × List Obj)), HasVal ((k', w) :: l) i x ↔
        (i = k' ∧ x ∈ w) ∨ HasVal l i x := by
      intro w l
      simp only [HasVal, List.mem_cons, Prod.mk.injEq]
      constructor
      · rintro ⟨l, ⟨rfl, rfl⟩ | h, hx⟩
        · exact .inl ⟨rfl, hx⟩
        · exact .inr ⟨l, h, hx⟩
      · rintro (⟨rfl, hx⟩ | ⟨l, h, hx⟩)
        · exact ⟨w, .inl ⟨rfl, rfl⟩, hx⟩
        · exact ⟨l, .inr h, hx⟩
    rw [insertAll]
    split
    · rename_i e
      subst e
      rw [hc, hc, List.mem_append]
      constructor
      · rintro (⟨rfl, h | h⟩ | h)
        · exact .inl (.inl ⟨rfl, h⟩)
        · exact .inr ⟨rfl, h⟩
        · exact .inl (.inr h)
      · rintro ((⟨rfl, h⟩ | h) | ⟨rfl, h⟩)
        · exact .inl ⟨rfl, .inl h⟩
        · exact .inr h
        · exact .inl ⟨rfl, .inr h⟩
    · rw [hc, hc, ih]
      tauto

theorem bind_ok {ε α β : Type} {a : Except ε α} {f : α → Except ε β} {b : β} (h : a >>= f = .ok b) :
    ∃ x, a = .ok x ∧ f x = .ok b := by
  cases a with
  | error e => cases h
  | ok x => exact ⟨x, rfl, h⟩

theorem insertProperty_val {f : R → Except SerErr Obj} {p : R} {values : List R}
    {ps ps' : List (Id × List Obj)} (h : insertProperty I f p values ps = .ok ps') :
    (∀ i x, HasVal ps' i x ↔ HasVal ps i x ∨ (idOf I p = some i ∧ ∃ v ∈ values, f v = .ok x)) ∧
    (∀ i, idOf I p = some i → ∀ v ∈ values, ∃ x, f v = .ok x) := by
  unfold insertProperty at h
  cases hp : idOf I p with
  | none =>
    rw [hp] at h
    cases h
    simp
  | some k =>
    rw [hp] at h
    dsimp only at h
    simp only [Option.some.injEq, forall_eq']
    induction values generalizing ps with
    | nil =>
      cases h
      simp
    | cons v values ih =>
      rw [List.foldlM_cons] at h
      obtain ⟨ps1, h1, h2⟩ := bind_ok h
      obtain ⟨x, hx, h3⟩ := bind_ok h1
      cases h3
      obtain ⟨ih1, ih2⟩ := ih h2
      refine ⟨fun i y => ?_, fun w hw => ?_⟩
      · rw [ih1, hasVal_insertAll]
        constructor
        · rintro ((h | ⟨rfl, h⟩) | ⟨e, w, hw, h⟩)
          · exact .inl h
          · exact .inr ⟨rfl, v, List.mem_cons_self, by rw [hx, List.mem_singleton.1 h]⟩
          · exact .inr ⟨e, w, List.mem_cons_of_mem _ hw, h⟩
        · rintro (hh | ⟨e, w, hw, hh⟩)
          · exact .inl (.inl hh)
          · rcases List.mem_cons.1 hw with rfl | hw
            · rw [hx] at hh
              cases hh
              exact .inl (.inr ⟨e, by simp⟩)
            · exact .inr ⟨e, w, hw, hh⟩
      · rcases List.mem_cons.1 hw with rfl | hw
        · exact ⟨x, hx⟩
        · exact ih2 w hw

theorem insertCells_val {f : R → Except SerErr Obj} {p : Option R} {values : List R}
    {ps ps' : List (Id × List Obj)} (h : insertCells I f p values ps = .ok ps') :
    (∀ i x, HasVal ps' i x ↔ HasVal ps i x ∨ ∃ k v, p = some k ∧ v ∈ values ∧ idOf I k = some i ∧ f v = .ok x) ∧
    (∀ k v i, p = some k → v ∈ values → idOf I k = some i → ∃ x, f v = .ok x) := by
  unfold insertCells at h
  cases values with
  | nil =>
    cases h
    simp
  | cons w values =>
    cases p with
    | none => cases h
    | some k =>
      obtain ⟨h1, h2⟩ := insertProperty_val I h
      refine ⟨fun i x => ?_, fun k' v i e hv hi => ?_⟩
      · rw [h1]
        simp only [Option.some.injEq, exists_and_left, exists_eq_left']
        constructor
        · rintro (h | ⟨e, v, hv, h⟩)
          · exact .inl h
          · exact .inr ⟨v, hv, e, h⟩
        · rintro (h | ⟨v, hv, e, h⟩)
          · exact .inl h
          · exact .inr ⟨e, v, hv, h⟩
      · cases e
        exact h2 i hi v hv

variable (o : SerOrders R) (s : SerState R)

/-- The value is written under the property `p`. -/
def Cell (e : Res R) (p v : R) : Prop :=
  (∃ l, (p, l) ∈ e.properties ∧ v ∈ l) ∨ (s.first = some p ∧ v ∈ e.first) ∨ (s.rest = some p ∧ v ∈ e.rest)

theorem foldProps_val {f : R → Except SerErr Obj} {L : List (R × List R)} {ps ps' : List (Id × List Obj)}
    (h : L.foldlM (fun ps p => insertProperty I f p.1 (o.set p.2) ps) ps = .ok ps') :
    (∀ i x, HasVal ps' i x ↔ HasVal ps i x ∨
      ∃ p v, (∃ l, (p, l) ∈ L ∧ v ∈ l) ∧ idOf I p = some i ∧ f v = .ok x) ∧
    (∀ p v i, (∃ l, (p, l) ∈ L ∧ v ∈ l) → idOf I p = some i → ∃ x, f v = .ok x) := by
  induction L generalizing ps with
  | nil =>
    cases h
    simp
  | cons q L ih =>
    rw [List.foldlM_cons] at h
    obtain ⟨ps1, h1, h2⟩ := bind_ok h
    obtain ⟨a1, a2⟩ := insertProperty_val I h1
    obtain ⟨b1, b2⟩ := ih h2
    refine ⟨fun i x => ?_, ?_⟩
    · rw [b1, a1]
      constructor
      · rintro ((h | ⟨e, v, hv, h⟩) | ⟨p, v, ⟨l, hl, hv⟩, h⟩)
        · exact .inl h
        · exact .inr ⟨q.1, v, ⟨q.2, List.mem_cons_self, (o.set_perm _).mem_iff.1 hv⟩, e, h⟩
        · exact .inr ⟨p, v, ⟨l, List.mem_cons_of_mem _ hl, hv⟩, h⟩
      · rintro (hh | ⟨p, v, ⟨l, hl, hv⟩, e, hh⟩)
        · exact .inl (.inl hh)
        · rcases List.mem_cons.1 hl with rfl | hl
          · exact .inl (.inr ⟨e, v, (o.set_perm _).mem_iff.2 hv, hh⟩)
          · exact .inr ⟨p, v, ⟨l, hl, hv⟩, e, hh⟩
    · rintro p v i ⟨l, hl, hv⟩ e
      rcases List.mem_cons.1 hl with rfl | hl
      · exact a2 i e v ((o.set_perm _).mem_iff.2 hv)
      · exact b2 p v i ⟨l, hl, hv⟩ e

theorem renderProps_val {f : R → Except SerErr Obj} {e : Res R} {ps : List (Id × List Obj)}
    (h : renderProps I o s f e = .ok ps) :
    (∀ i x, HasVal ps i x ↔ ∃ p v, Cell s e p v ∧ idOf I p = some i ∧ f v = .ok x) ∧
    (∀ p v i, Cell s e p v → idOf I p = some i → ∃ x, f v = .ok x) := by
  unfold renderProps at h
  obtain ⟨ps1, h1, h⟩ := bind_ok h
  obtain ⟨ps2, h2, h3⟩ := bind_ok h
  obtain ⟨a1, a2⟩ := foldProps_val I o h1
  obtain ⟨b1, b2⟩ := insertCells_val I h2
  obtain ⟨c1, c2⟩ := insertCells_val I h3
  have hp : ∀ {p v}, (∃ l, (p, l) ∈ o.properties e.properties ∧ v ∈ l) ↔ ∃ l, (p, l) ∈ e.properties ∧ v ∈ l := by
    intro p v
    constructor <;> rintro ⟨l, hl, hv⟩
    · exact ⟨l, (o.properties_perm _).mem_iff.1 hl, hv⟩
    · exact ⟨l, (o.properties_perm _).mem_iff.2 hl, hv⟩
  have hs : ∀ {v} {l : List R}, v ∈ o.set l ↔ v ∈ l := fun {v l} => (o.set_perm l).mem_iff
  have h0 : ∀ i x, ¬ HasVal [] i x := by
    rintro i x ⟨l, hl, _⟩
    cases hl
  refine ⟨fun i x => ?_, ?_⟩
  · rw [c1, b1, a1]
    constructor
    · rintro (((h | ⟨p, v, hc, e, h⟩) | ⟨p, v, hk, hv, e, h⟩) | ⟨p, v, hk, hv, e, h⟩)
      · exact absurd h (h0 i x)
      · exact ⟨p, v, .inl (hp.1 hc), e, h⟩
      · exact ⟨p, v, .inr (.inl ⟨hk, hs.1 hv⟩), e, h⟩
      · exact ⟨p, v, .inr (.inr ⟨hk, hs.1 hv⟩), e, h⟩
    · rintro ⟨p, v, hc | ⟨hk, hv⟩ | ⟨hk, hv⟩, e, h⟩
      · exact .inl (.inl (.inr ⟨p, v, hp.2 hc, e, h⟩))
      · exact .inl (.inr ⟨p, v, hk, hs.2 hv, e, h⟩)
      · exact .inr ⟨p, v, hk, hs.2 hv, e, h⟩
  · rintro p v i (hc | ⟨hk, hv⟩ | ⟨hk, hv⟩) e
    · exact a2 p v i (hp.2 hc) e
    · exact b2 p v i hk (hs.2 hv) e
    · exact c2 p v i hk (hs.2 hv) e

theorem renderTypes_val {list : Option R} {l : List (RType R)} {ts : List Id}
    (h : renderTypes I list l = .ok ts) (t : Id) : t ∈ ts ↔
      (∃ r, .other r ∈ l ∧ idOf I r = some t) ∨ (.list ∈ l ∧ ∃ r, list = some r ∧ idOf I r = some t) := by
  induction l generalizing ts with
  | nil =>
    cases h
    simp
  | cons x l ih =>
    unfold renderTypes at h
    cases x with
    | list =>
      cases list with
      | none => cases h
      | some r =>
        obtain ⟨ts', h1, h2⟩ := bind_ok h
        cases h2
        rw [List.mem_append, Option.mem_toList, ih h1]
        simp only [List.mem_cons, reduceCtorEq, false_or, true_or, true_and, Option.some.injEq,
          exists_eq_left']
        generalize (∃ r, RType.other r ∈ l ∧ idOf I r = some t) = A
        constructor
        · rintro (h | h | h)
          · exact .inr h
          · exact .inl h
          · exact .inr h.2
        · rintro (h | h)
          · exact .inr (.inl h)
          · exact .inl h
    | other r =>
      obtain ⟨ts', h1, h2⟩ := bind_ok h
      cases h2
      rw [List.mem_append, Option.mem_toList, ih h1]
      simp only [List.mem_cons, reduceCtorEq, false_or, RType.other.injEq]
      constructor
      · rintro (h | ⟨x, h⟩ | h)
        · exact .inl ⟨r, .inl rfl, h⟩
        · exact .inl ⟨x, .inr h.1, h.2⟩
        · exact .inr h
      · rintro (⟨x, rfl | h, h'⟩ | h)
        · exact .inl h'
        · exact .inr (.inl ⟨x, h, h'⟩)
        · exact .inr (.inr h)

/-! ## Lists of results -/

theorem mapM_mem {α β : Type} {f : α → Except SerErr β} {l : List α} {ys : List β}
    (h : l.mapM f = .ok ys) : (∀ x ∈ l, ∃ y ∈ ys, f x = .ok y) ∧ ∀ y ∈ ys, ∃ x ∈ l, f x = .ok y := by
  induction l generalizing ys with
  | nil =>
    cases h
    simp
  | cons a l ih =>
    rw [List.mapM_cons] at h
    obtain ⟨y, hy, h⟩ := bind_ok h
    obtain ⟨ys', h1, h2⟩ := bind_ok h
    cases h2
    obtain ⟨i1, i2⟩ := ih h1
    refine ⟨fun x hx => ?_, fun z hz => ?_⟩
    · rcases List.mem_cons.1 hx with rfl | hx
      · exact ⟨y, List.mem_cons_self, hy⟩
      · obtain ⟨z, hz, e⟩ := i1 x hx
        exact ⟨z, List.mem_cons_of_mem _ hz, e⟩
    · rcases List.mem_cons.1 hz with rfl | hz
      · exact ⟨a, List.mem_cons_self, hy⟩
      · obtain ⟨x, hx, e⟩ := i2 z hz
        exact ⟨x, List.mem_cons_of_mem _ hx, e⟩

theorem mapM_pairwise {α β : Type} {f : α → Except SerErr β} {P : α → α → Prop} {Q : β → β → Prop}
    {l : List α} {ys : List β} (h : l.mapM f = .ok ys) (hp : l.Pairwise P)
    (hq : ∀ a ∈ l, ∀ b ∈ l, P a b → ∀ x y, f a = .ok x → f b = .ok y → Q x y) : ys.Pairwise Q := by
  induction l generalizing ys with
  | nil =>
    cases h
    exact .nil
  | cons a l ih =>
    rw [List.mapM_cons] at h
    obtain ⟨y, hy, h⟩ := bind_ok h
    obtain ⟨ys', h1, h2⟩ := bind_ok h
    cases h2
    rw [List.pairwise_cons] at hp ⊢
    refine ⟨fun z hz => ?_, ih h1 hp.2 fun b hb c hc => hq b (List.mem_cons_of_mem _ hb) c
      (List.mem_cons_of_mem _ hc)⟩
    obtain ⟨b, hb, e⟩ := (mapM_mem h1).2 z hz
    exact hq a List.mem_cons_self b (List.mem_cons_of_mem _ hb) (hp.1 b hb) y z hy e

end
end JsonLd
