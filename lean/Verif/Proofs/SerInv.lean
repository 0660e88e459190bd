import Verif.Model.Ser
import Mathlib.Data.List.Perm.Basic
import Mathlib.Data.List.Nodup
import Mathlib.Data.List.Induction
/-!
# The data structures built from quads
-/

namespace JsonLd

section
variable {R : Type} [DecidableEq R]

/-! ## Maps -/

section
variable {α : Type}

theorem find_upsert (k : R) (v : α) (f : α → α) (l : List (R × α)) (k' : R) :
    find k' (upsert k v f l) = if k' = k then some (f ((find k l).getD v)) else find k' l := by
  induction l with
  | nil =>
    by_cases h : k' = k
    · subst h; simp [upsert, find]
    · have h' : ¬ k = k' := fun e => h e.symm
      simp [upsert, find, h, h']
  | cons p l ih =>
    obtain ⟨a, b⟩ := p
    by_cases ha : a = k
    · subst ha
      by_cases h : k' = a
      · subst h; simp [upsert, find]
      · have h' : ¬ a = k' := fun e => h e.symm
        simp [upsert, find, h, h']
    · by_cases h : k' = a
      · subst h
        simp [upsert, find, ha]
      · have h' : ¬ a = k' := fun e => h e.symm
        simp only [upsert, if_neg ha, find, if_neg h', ih]

theorem keys_upsert (k : R) (v : α) (f : α → α) (l : List (R × α)) (x : R) :
    x ∈ (upsert k v f l).map Prod.fst ↔ x = k ∨ x ∈ l.map Prod.fst := by
  induction l with
  | nil => simp [upsert]
  | cons p l ih =>
    obtain ⟨a, b⟩ := p
    by_cases ha : a = k
    · subst ha
      simp [upsert]
    · simp only [upsert, if_neg ha, List.map_cons, List.mem_cons, ih]
      tauto

theorem nodup_upsert {k : R} {v : α} {f : α → α} {l : List (R × α)} (h : (l.map Prod.fst).Nodup) :
    ((upsert k v f l).map Prod.fst).Nodup := by
  induction l with
  | nil => simp [upsert]
  | cons p l ih =>
    obtain ⟨a, b⟩ := p
    rw [List.map_cons, List.nodup_cons] at h
    by_cases ha : a = k
    · subst ha
      simp only [upsert, if_true, List.map_cons, List.nodup_cons]
      exact h
    · simp only [upsert, if_neg ha, List.map_cons, List.nodup_cons, keys_upsert]
      exact ⟨fun hx => hx.elim ha h.1, ih h.2⟩

theorem find_iff {l : List (R × α)} (h : (l.map Prod.fst).Nodup) {k : R} {a : α} :
    find k l = some a ↔ (k, a) ∈ l := by
  induction l with
  | nil => simp [find]
  | cons p l ih =>
    obtain ⟨x, b⟩ := p
    rw [List.map_cons, List.nodup_cons] at h
    by_cases hx : x = k
    · subst hx
      simp only [find, if_true, List.mem_cons, Prod.mk.injEq, true_and, Option.some.injEq]
      constructor
      · rintro rfl; exact .inl rfl
      · rintro (rfl | hm)
        · rfl
        · exact absurd (List.mem_map.2 ⟨_, hm, rfl⟩) h.1
    · simp only [find, if_neg hx, ih h.2, List.mem_cons, Prod.mk.injEq]
      constructor
      · exact .inr
      · rintro (⟨e, _⟩ | hm)
        · exact absurd e.symm hx
        · exact hm

theorem find_isSome {l : List (R × α)} {k : R} : (find k l).isSome = true ↔ k ∈ l.map Prod.fst := by
  induction l with
  | nil => simp [find]
  | cons p l ih =>
    obtain ⟨x, b⟩ := p
    by_cases hx : x = k
    · subst hx; simp [find]
    · have hx' : ¬ k = x := fun e => hx e.symm
      simp [find, if_neg hx, ih, hx']

theorem mem_addNew {α : Type} [DecidableEq α] {a x : α} {l : List α} : x ∈ addNew a l ↔ x = a ∨ x ∈ l := by
  unfold addNew
  split
  · constructor
    · exact .inr
    · rintro (rfl | h) <;> assumption
  · simp only [List.mem_append, List.mem_singleton]
    tauto

end

/-! ## Graphs -/

variable (I : Interp R)

/-- The entry of a resource, empty if there is none. -/
def entry (r : R) (G : SGraph R) : Res R := (find r G).getD .empty

theorem entry_upsert (k : R) (f : Res R → Res R) (G : SGraph R) (r : R) :
    entry r (upsert k .empty f G) = if r = k then f (entry k G) else entry r G := by
  unfold entry
  rw [find_upsert]
  split <;> rfl

theorem addQuad_types (q : IQuad R) (G : SGraph R) (r : R) :
    (entry r (addQuad I q G)).types =
      if rdfProperty I q.property = some .type ∧ r = q.subject then
        addNew (rdfTypeOf I q.object) (entry r G).types
      else (entry r G).types := by
  unfold addQuad
  rw [entry_upsert]
  rcases hp : rdfProperty I q.property with _ | _ | _ | _ <;> simp only [entry_upsert] <;> split_ifs <;>
    simp_all

theorem addQuad_first (q : IQuad R) (G : SGraph R) (r : R) :
    (entry r (addQuad I q G)).first =
      if rdfProperty I q.property = some .first ∧ r = q.subject then addNew q.object (entry r G).first
      else (entry r G).first := by
  unfold addQuad
  rw [entry_upsert]
  rcases hp : rdfProperty I q.property with _ | _ | _ | _ <;> simp only [entry_upsert] <;> split_ifs <;>
    simp_all

theorem addQuad_rest (q : IQuad R) (G : SGraph R) (r : R) :
    (entry r (addQuad I q G)).rest =
      if rdfProperty I q.property = some .rest ∧ r = q.subject then addNew q.object (entry r G).rest
      else (entry r G).rest := by
  unfold addQuad
  rw [entry_upsert]
  rcases hp : rdfProperty I q.property with _ | _ | _ | _ <;> simp only [entry_upsert] <;> split_ifs <;>
    simp_all

theorem addQuad_properties (q : IQuad R) (G : SGraph R) (r : R) :
    (entry r (addQuad I q G)).properties =
      if rdfProperty I q.property = none ∧ r = q.subject then
        upsert q.property [] (addNew q.object) (entry r G).properties
      else (entry r G).properties := by
  unfold addQuad
  rw [entry_upsert]
  rcases hp : rdfProperty I q.property with _ | _ | _ | _ <;> simp only [entry_upsert] <;> split_ifs <;>
    simp_all

theorem addQuad_reverseRest (q : IQuad R) (G : SGraph R) (r : R) :
    (entry r (addQuad I q G)).reverseRest =
      if rdfProperty I q.property = some .rest ∧ r = q.object then
        addNew q.property (entry r G).reverseRest
      else (entry r G).reverseRest := by
  unfold addQuad
  rw [entry_upsert]
  rcases hp : rdfProperty I q.property with _ | _ | _ | _ <;> simp only [entry_upsert] <;> split_ifs <;>
    simp_all

theorem addQuad_values (q : IQuad R) (G : SGraph R) (r : R) :
    (entry r (addQuad I q G)).values = (entry r G).values := by
  unfold addQuad
  rw [entry_upsert]
  rcases hp : rdfProperty I q.property with _ | _ | _ | _ <;> simp only [entry_upsert] <;> split_ifs <;>
    simp_all

theorem addQuad_references (q : IQuad R) (G : SGraph R) (r : R) :
    (entry r (addQuad I q G)).references =
      if r = q.object then
        (if q.property = q.object then usizeMax else min ((entry r G).references + 1) usizeMax)
      else (entry r G).references := by
  unfold addQuad
  rw [entry_upsert]
  rcases hp : rdfProperty I q.property with _ | _ | _ | _ <;> simp only [entry_upsert] <;> split_ifs <;>
    simp_all

theorem addQuad_keys (q : IQuad R) (G : SGraph R) (r : R) :
    r ∈ (addQuad I q G).map Prod.fst ↔ r = q.subject ∨ r = q.object ∨ r ∈ G.map Prod.fst := by
  unfold addQuad
  rw [keys_upsert]
  rcases hp : rdfProperty I q.property with _ | _ | _ | _ <;> simp only [keys_upsert] <;> tauto

theorem addQuad_nodup {q : IQuad R} {G : SGraph R} (h : (G.map Prod.fst).Nodup) :
    ((addQuad I q G).map Prod.fst).Nodup := by
  unfold addQuad
  apply nodup_upsert
  rcases hp : rdfProperty I q.property with _ | _ | _ | _
  · exact nodup_upsert h
  · exact nodup_upsert h
  · exact nodup_upsert h
  · exact nodup_upsert (nodup_upsert h)

/-- How references are counted. -/
def refsOf (l : List (IQuad R)) : Nat :=
  l.foldl (fun n q => if q.property = q.object then usizeMax else min (n + 1) usizeMax) 0

/-- What the entry of a resource says after the quads. -/
structure Describes (L : List (IQuad R)) (r : R) (e : Res R) : Prop where
  types : ∀ t, t ∈ e.types ↔ ∃ q ∈ L, q.subject = r ∧ rdfProperty I q.property = some .type ∧
    rdfTypeOf I q.object = t
  first : ∀ o, o ∈ e.first ↔ ∃ q ∈ L, q.subject = r ∧ rdfProperty I q.property = some .first ∧
    q.object = o
  rest : ∀ o, o ∈ e.rest ↔ ∃ q ∈ L, q.subject = r ∧ rdfProperty I q.property = some .rest ∧
    q.object = o
  properties : ∀ p o, (∃ l, (p, l) ∈ e.properties ∧ o ∈ l) ↔ ∃ q ∈ L, q.subject = r ∧
    rdfProperty I q.property = none ∧ q.property = p ∧ q.object = o
  nonempty : ∀ p l, (p, l) ∈ e.properties → l ≠ []
  keys : (e.properties.map Prod.fst).Nodup
  reverseRest : ∀ p ∈ e.reverseRest, rdfProperty I p = some .rest
  values : e.values = none
  references : e.references = refsOf (L.filter fun q => decide (q.object = r))

/-- The graph after the quads. -/
structure GraphInv (L : List (IQuad R)) (G : SGraph R) : Prop where
  nodup : (G.map Prod.fst).Nodup
  keys : ∀ r, r ∈ G.map Prod.fst ↔ ∃ q ∈ L, q.subject = r ∨ q.object = r
  entry : ∀ r, Describes I L r (entry r G)

theorem graphInv_nil : GraphInv I [] [] where
  nodup := List.nodup_nil
  keys := by simp
  entry := by
    intro r
    constructor <;> simp [entry, find, Res.empty, refsOf]

theorem graphInv_step {L : List (IQuad R)} {G : SGraph R} (h : GraphInv I L G) (q : IQuad R) :
    GraphInv I (L ++ [q]) (addQuad I q G) where
  nodup := addQuad_nodup I h.nodup
  keys := by
    intro r
    rw [addQuad_keys, h.keys]
    simp only [List.mem_append, List.mem_singleton]
    constructor
    · rintro (rfl | rfl | ⟨x, hx, e⟩)
      · exact ⟨q, .inr rfl, .inl rfl⟩
      · exact ⟨q, .inr rfl, .inr rfl⟩
      · exact ⟨x, .inl hx, e⟩
    · rintro ⟨x, hx | rfl, e⟩
      · exact .inr (.inr ⟨x, hx, e⟩)
      · rcases e with rfl | rfl
        · exact .inl rfl
        · exact .inr (.inl rfl)
  entry := by
    intro r
    have d := h.entry r
    have split : ∀ (P : IQuad R → Prop), (∃ x ∈ L ++ [q], P x) ↔ (∃ x ∈ L, P x) ∨ P q := by
      intro P
      simp only [List.mem_append, List.mem_singleton]
      constructor
      · rintro ⟨x, hx | rfl, hp⟩
        · exact .inl ⟨x, hx, hp⟩
        · exact .inr hp
      · rintro (⟨x, hx, hp⟩ | hp)
        · exact ⟨x, .inl hx, hp⟩
        · exact ⟨q, .inr rfl, hp⟩
    constructor
    · intro t
      rw [addQuad_types, split, ← d.types]
      split
      · rename_i hc
        rw [mem_addNew]
        constructor
        · rintro (rfl | h)
          · exact .inr ⟨hc.2.symm, hc.1, rfl⟩
          · exact .inl h
        · rintro (h | ⟨_, _, rfl⟩)
          · exact .inr h
          · exact .inl rfl
      · rename_i hc
        constructor
        · exact .inl
        · rintro (h | ⟨h1, h2, _⟩)
          · exact h
          · exact absurd ⟨h2, h1.symm⟩ hc
    · intro t
      rw [addQuad_first, split, ← d.first]
      split
      · rename_i hc
        rw [mem_addNew]
        constructor
        · rintro (rfl | h)
          · exact .inr ⟨hc.2.symm, hc.1, rfl⟩
          · exact .inl h
        · rintro (h | ⟨_, _, rfl⟩)
          · exact .inr h
          · exact .inl rfl
      · rename_i hc
        constructor
        · exact .inl
        · rintro (h | ⟨h1, h2, _⟩)
          · exact h
          · exact absurd ⟨h2, h1.symm⟩ hc
    · intro t
      rw [addQuad_rest, split, ← d.rest]
      split
      · rename_i hc
        rw [mem_addNew]
        constructor
        · rintro (rfl | h)
          · exact .inr ⟨hc.2.symm, hc.1, rfl⟩
          · exact .inl h
        · rintro (h | ⟨_, _, rfl⟩)
          · exact .inr h
          · exact .inl rfl
      · rename_i hc
        constructor
        · exact .inl
        · rintro (h | ⟨h1, h2, _⟩)
          · exact h
          · exact absurd ⟨h2, h1.symm⟩ hc
    · intro p o
      rw [addQuad_properties, split, ← d.properties]
      split
      · rename_i hc
        have hf : ∀ l, (p, l) ∈ upsert q.property [] (addNew q.object) (entry r G).properties ↔ _ :=
          fun l => (find_iff (nodup_upsert d.keys)).symm
        have hf' : ∀ l, (p, l) ∈ (entry r G).properties ↔ _ := fun l => (find_iff d.keys).symm
        simp only [hf, hf', find_upsert]
        by_cases hpq : p = q.property
        · subst hpq
          simp only [if_true, Option.some.injEq, exists_eq_left', mem_addNew]
          constructor
          · rintro (rfl | h)
            · exact .inr ⟨hc.2.symm, hc.1, trivial, rfl⟩
            · cases hg : find q.property (entry r G).properties with
              | none => rw [hg] at h; cases h
              | some l => rw [hg] at h; exact .inl ⟨l, rfl, h⟩
          · rintro (⟨l, hl, h⟩ | ⟨_, _, _, rfl⟩)
            · rw [hl]; exact .inr h
            · exact .inl rfl
        · simp only [if_neg hpq]
          constructor
          · exact .inl
          · rintro (h | ⟨_, _, e, _⟩)
            · exact h
            · exact absurd e.symm hpq
      · rename_i hc
        constructor
        · exact .inl
        · rintro (h | ⟨h1, h2, _⟩)
          · exact h
          · exact absurd ⟨h2, h1.symm⟩ hc
    · intro p l hpl
      rw [addQuad_properties] at hpl
      split at hpl
      · rw [← find_iff (nodup_upsert d.keys), find_upsert] at hpl
        split at hpl
        · cases hpl
          exact List.ne_nil_of_mem (mem_addNew.2 (.inl rfl))
        · exact d.nonempty p l ((find_iff d.keys).1 hpl)
      · exact d.nonempty p l hpl
    · rw [addQuad_properties]
      split
      · exact nodup_upsert d.keys
      · exact d.keys
    · intro p hp
      rw [addQuad_reverseRest] at hp
      split at hp
      · rename_i hc
        rcases mem_addNew.1 hp with rfl | hp
        · exact hc.1
        · exact d.reverseRest p hp
      · exact d.reverseRest p hp
    · rw [addQuad_values, d.values]
    · rw [addQuad_references, List.filter_append, d.references]
      by_cases hr : r = q.object
      · subst hr
        have : [q].filter (fun x => decide (x.object = q.object)) = [q] := by simp
        rw [this, if_pos rfl]
        simp only [refsOf, List.foldl_append, List.foldl_cons, List.foldl_nil]
      · have : [q].filter (fun x => decide (x.object = r)) = [] := by
          simp only [List.filter_cons, List.filter_nil, decide_eq_true_eq]
          rw [if_neg fun e => hr e.symm]
        rw [this, if_neg hr, List.append_nil]

/-- The graph of some quads. -/
def graphOf (L : List (IQuad R)) : SGraph R := L.foldl (fun G q => addQuad I q G) []

theorem graphInv_graphOf (L : List (IQuad R)) : GraphInv I L (graphOf I L) := by
  have : ∀ (L' L : List (IQuad R)) (G : SGraph R), GraphInv I L G →
      GraphInv I (L ++ L') (L'.foldl (fun G q => addQuad I q G) G) := by
    intro L'
    induction L' with
    | nil => intro L G h; simpa using h
    | cons q L' ih =>
      intro L G h
      have := ih (L ++ [q]) _ (graphInv_step I h q)
      simpa using this
  simpa [graphOf] using this L [] [] (graphInv_nil I)

/-- The quads of a graph. -/
def inGraph (qs : List (IQuad R)) (g : Option R) : List (IQuad R) :=
  qs.filter fun q => decide (q.graph = g)

theorem inGraph_snoc (qs : List (IQuad R)) (q : IQuad R) (g : Option R) :
    inGraph (qs ++ [q]) g = if q.graph = g then inGraph qs g ++ [q] else inGraph qs g := by
  unfold inGraph
  rw [List.filter_append, List.filter_cons, List.filter_nil]
  split_ifs <;> simp_all

theorem graphOf_snoc (L : List (IQuad R)) (q : IQuad R) :
    graphOf I (L ++ [q]) = addQuad I q (graphOf I L) := by
  simp [graphOf, List.foldl_append]

/-- The state after the quads. -/
def stateOf (qs : List (IQuad R)) : SerState R := qs.foldl (serStep I) ⟨[], [], none, none, none, none⟩

theorem stateOf_snoc (qs : List (IQuad R)) (q : IQuad R) :
    stateOf I (qs ++ [q]) = serStep I (stateOf I qs) q := by
  simp [stateOf, List.foldl_append]

theorem serStep_default (s : SerState R) (q : IQuad R) :
    (serStep I s q).default = if q.graph = none then addQuad I q s.default else s.default := by
  unfold serStep
  cases q.graph <;> rcases rdfProperty I q.property with _ | _ | _ | _ <;> simp

theorem serStep_named (s : SerState R) (q : IQuad R) :
    (serStep I s q).named = match q.graph with
      | none => s.named
      | some g => upsert g [] (addQuad I q) s.named := by
  unfold serStep
  cases q.graph <;> rcases rdfProperty I q.property with _ | _ | _ | _ <;> simp

/-- The state after the quads, as far as the theorems need it. -/
structure StateInv (qs : List (IQuad R)) (s : SerState R) : Prop where
  default : s.default = graphOf I (inGraph qs none)
  named : ∀ g, find g s.named =
    if inGraph qs (some g) = [] then none else some (graphOf I (inGraph qs (some g)))
  nodup : (s.named.map Prod.fst).Nodup
  list : ∀ q ∈ qs, rdfProperty I q.property = some .type → rdfTypeOf I q.object = .list →
    ∃ r, s.list = some r
  list_src : ∀ r, s.list = some r → rdfTypeOf I r = .list ∧ ∃ q ∈ qs, q.object = r ∧
    rdfProperty I q.property = some .type
  first : ∀ q ∈ qs, rdfProperty I q.property = some .first → ∃ p, s.first = some p
  first_src : ∀ p, s.first = some p → ∃ q ∈ qs, q.property = p ∧
    (rdfProperty I p = some .first ∨ rdfProperty I p = some .type)
  first_last : ∀ p, s.first = some p → rdfProperty I p = some .type →
    ∃ pre q post, qs = pre ++ q :: post ∧ rdfProperty I q.property = some .type ∧
      ∀ x ∈ post, rdfProperty I x.property ≠ some .first
  rest : ∀ q ∈ qs, rdfProperty I q.property = some .rest → ∃ p, s.rest = some p
  rest_src : ∀ p, s.rest = some p → rdfProperty I p = some .rest ∧ ∃ q ∈ qs, q.property = p

theorem stateInv (qs : List (IQuad R)) : StateInv I qs (stateOf I qs) := by
  induction qs using List.reverseRecOn with
  | nil =>
    constructor <;> simp [stateOf, graphOf, inGraph, find]
  | append_singleton qs q ih =>
    rw [stateOf_snoc]
    have terms : (serStep I (stateOf I qs) q).list =
        (if rdfProperty I q.property = some .type ∧ rdfTypeOf I q.object = .list then some q.object
          else (stateOf I qs).list) ∧
        (serStep I (stateOf I qs) q).first =
          (if rdfProperty I q.property = some .type ∨ rdfProperty I q.property = some .first then
            some q.property else (stateOf I qs).first) ∧
        (serStep I (stateOf I qs) q).rest =
          (if rdfProperty I q.property = some .rest then some q.property else (stateOf I qs).rest) := by
      unfold serStep
      cases q.graph <;> rcases rdfProperty I q.property with _ | _ | _ | _ <;> simp
    obtain ⟨tl, tf, tr⟩ := terms
    constructor
    · rw [serStep_default, inGraph_snoc, ih.default]
      split
      · rw [graphOf_snoc]
      · rfl
    · intro g
      rw [serStep_named, inGraph_snoc]
      cases hg : q.graph with
      | none =>
        have : ¬ ((none : Option R) = some g) := by simp
        simp only [if_neg this]
        exact ih.named g
      | some g' =>
        by_cases hgg : g = g'
        · subst hgg
          have hne : ¬ (inGraph qs (some g) ++ [q] = []) := by simp
          simp only [if_true, if_neg hne, find_upsert, graphOf_snoc, ih.named]
          by_cases he : inGraph qs (some g) = []
          · simp [he, graphOf]
          · simp [he]
        · have : ¬ (some g' = some g) := fun e => hgg (Option.some.inj e).symm
          simp only [find_upsert, if_neg hgg, if_neg this, ih.named]
    · rw [serStep_named]
      cases q.graph with
      | none => exact ih.nodup
      | some g => exact nodup_upsert ih.nodup
    · intro x hx h1 h2
      rw [tl]
      split
      · exact ⟨_, rfl⟩
      · rename_i hn
        rcases List.mem_append.1 hx with hx | hx
        · exact ih.list x hx h1 h2
        · rw [List.mem_singleton.1 hx] at h1 h2
          exact absurd ⟨h1, h2⟩ hn
    · intro r hr
      rw [tl] at hr
      split at hr
      · rename_i hc
        cases hr
        exact ⟨hc.2, q, by simp, rfl, hc.1⟩
      · obtain ⟨h1, x, hx, h2⟩ := ih.list_src r hr
        exact ⟨h1, x, List.mem_append_left _ hx, h2⟩
    · intro x hx h1
      rw [tf]
      split
      · exact ⟨_, rfl⟩
      · rename_i hn
        rcases List.mem_append.1 hx with hx | hx
        · exact ih.first x hx h1
        · rw [List.mem_singleton.1 hx] at h1
          exact absurd (.inr h1) hn
    · intro p hp
      rw [tf] at hp
      split at hp
      · rename_i hc
        cases hp
        exact ⟨q, by simp, rfl, hc.symm⟩
      · obtain ⟨x, hx, h⟩ := ih.first_src p hp
        exact ⟨x, List.mem_append_left _ hx, h⟩
    · intro p hp ht
      rw [tf] at hp
      split at hp
      · cases hp
        exact ⟨qs, q, [], rfl, ht, by simp⟩
      · rename_i hn
        obtain ⟨pre, x, post, e, h1, h2⟩ := ih.first_last p hp ht
        refine ⟨pre, x, post ++ [q], by rw [e]; simp, h1, ?_⟩
        intro y hy
        rcases List.mem_append.1 hy with hy | hy
        · exact h2 y hy
        · rw [List.mem_singleton.1 hy]
          exact fun e => hn (.inr e)
    · intro x hx h1
      rw [tr]
      split
      · exact ⟨_, rfl⟩
      · rename_i hn
        rcases List.mem_append.1 hx with hx | hx
        · exact ih.rest x hx h1
        · rw [List.mem_singleton.1 hx] at h1
          exact absurd h1 hn
    · intro p hp
      rw [tr] at hp
      split at hp
      · rename_i hc
        cases hp
        exact ⟨hc, q, by simp, rfl⟩
      · obtain ⟨h1, x, hx, h2⟩ := ih.rest_src p hp
        exact ⟨h1, x, List.mem_append_left _ hx, h2⟩

/-! ## The default graph with the names of the others -/

theorem entry_upsert_id (k : R) (G : SGraph R) (r : R) : entry r (upsert k .empty id G) = entry r G := by
  rw [entry_upsert]
  split
  · rename_i h; rw [h]; rfl
  · rfl

theorem fold_inv (N : List (R × SGraph R)) (G : SGraph R) (h : (G.map Prod.fst).Nodup) :
    ((N.foldl (fun G g => upsert g.1 .empty id G) G).map Prod.fst).Nodup ∧
    (∀ r, entry r (N.foldl (fun G g => upsert g.1 .empty id G) G) = entry r G) ∧
    (∀ r, r ∈ (N.foldl (fun G g => upsert g.1 .empty id G) G).map Prod.fst ↔
      r ∈ G.map Prod.fst ∨ r ∈ N.map Prod.fst) := by
  induction N generalizing G with
  | nil => simp [h]
  | cons g N ih =>
    obtain ⟨h1, h2, h3⟩ := ih (upsert g.1 .empty id G) (nodup_upsert h)
    refine ⟨h1, fun r => ?_, fun r => ?_⟩
    · rw [List.foldl_cons, h2, entry_upsert_id]
    · rw [List.foldl_cons, h3, keys_upsert]
      simp only [List.map_cons, List.mem_cons]
      tauto

/-- A graph as it is rendered. -/
structure Ready (L : List (IQuad R)) (G : SGraph R) : Prop where
  nodup : (G.map Prod.fst).Nodup
  entry : ∀ r, Describes I L r (entry r G)
  keys : ∀ q ∈ L, q.subject ∈ G.map Prod.fst ∧ q.object ∈ G.map Prod.fst

theorem GraphInv.ready {L : List (IQuad R)} {G : SGraph R} (h : GraphInv I L G) : Ready I L G where
  nodup := h.nodup
  entry := h.entry
  keys := fun q hq => ⟨(h.keys _).2 ⟨q, hq, .inl rfl⟩, (h.keys _).2 ⟨q, hq, .inr rfl⟩⟩

theorem ready_fold (qs : List (IQuad R)) : Ready I (inGraph qs none) (stateOf I qs).fold := by
  have hs := stateInv I qs
  have hg := graphInv_graphOf I (inGraph qs none)
  rw [← hs.default] at hg
  obtain ⟨h1, h2, h3⟩ := fold_inv (stateOf I qs).named (stateOf I qs).default hg.nodup
  refine ⟨h1, fun r => ?_, fun q hq => ?_⟩
  · have : JsonLd.entry r (stateOf I qs).fold = JsonLd.entry r (stateOf I qs).default := h2 r
    rw [this]; exact hg.entry r
  · exact ⟨(h3 _).2 (.inl (hg.ready.keys q hq).1), (h3 _).2 (.inl (hg.ready.keys q hq).2)⟩

theorem find_entry {G : SGraph R} {r : R} {e : Res R} (h : find r G = some e) : entry r G = e := by
  simp [entry, h]

omit [DecidableEq R] in
theorem rest_not_anonymous {p : R} (h : rdfProperty I p = some .rest) : isAnonymous I p = false := by
  unfold isAnonymous
  cases hi : I.iris p with
  | nil => simp [rdfProperty, hi] at h
  | cons => rfl

/-- No list is ever found. -/
theorem collectLists_nil (sub : R → Option (SGraph R)) (G : SGraph R) (b : Nat) {ns : List R}
    (h : ∀ n ∈ ns, rdfProperty I n = some .rest) : collectLists I sub G b ns = .ok [] := by
  induction ns with
  | nil => rfl
  | cons n ns ih =>
    simp only [collectLists, ih fun x hx => h x (List.mem_cons_of_mem _ hx), bind, Except.bind,
      rest_not_anonymous I (h n List.mem_cons_self)]
    rfl

theorem fromQuads_eq (o : SerOrders R) (b : Nat) (qs : List (IQuad R)) :
    fromQuads I o b qs = renderTop o
      (renderObj I o (stateOf I qs) b (fun r => find r (stateOf I qs).named) (stateOf I qs).fold)
      (fun r => find r (stateOf I qs).named) (stateOf I qs).fold := by
  have hl : ∀ n ∈ o.set (listStarts (stateOf I qs).nil (stateOf I qs).fold), rdfProperty I n = some .rest := by
    intro n hn
    rw [(o.set_perm _).mem_iff] at hn
    unfold listStarts at hn
    split at hn
    · rename_i e he
      obtain ⟨i, _, hi⟩ := Option.bind_eq_some_iff.1 he
      have := (ready_fold I qs).entry i
      rw [find_entry hi] at this
      exact this.reverseRest n hn
    · cases hn
  have := collectLists_nil I (fun r => find r (stateOf I qs).named) (stateOf I qs).fold b hl
  unfold fromQuads
  simp only [stateOf] at this ⊢
  rw [this]
  rfl

end
end JsonLd
