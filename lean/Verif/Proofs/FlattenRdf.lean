import Verif.Props.Flatten
import Verif.Props.SameStatements
import Verif.Spec.Reference
/-!
# Statements of a flattened document
-/

namespace JsonLd
open Spec Props

/-- When every node is named, what is in the document is reached by the conversion. -/
theorem occurs_reached {d : Doc} (hn : AllNamed d) {g : Option Id} {x : Item} (h : Occurs d g x) :
    Reached d g x := by
  induction h with
  | top h => exact .top h
  | item _ hm ih => exact .item ih hm
  | self _ ih => exact .self ih
  | graph _ hi hl hm ih => exact .graph ih hi hl hm
  | included h hl hm ih =>
    obtain ⟨i, hi⟩ := Option.isSome_iff_exists.1 (hn _ _ h)
    exact .included ih hi hl hm
  | property h hl hm ih =>
    obtain ⟨i, hi⟩ := Option.isSome_iff_exists.1 (hn _ _ h)
    exact .property ih hi hl hm
  | reverse h hr hl hm ih =>
    obtain ⟨i, hi⟩ := Option.isSome_iff_exists.1 (hn _ _ h)
    exact .reverse ih hi hr hl hm

theorem reached_occurs {d : Doc} {g : Option Id} {x : Item} (h : Reached d g x) : Occurs d g x := by
  induction h with
  | top h => exact .top h
  | item _ hm ih => exact .item ih hm
  | self _ ih => exact .self ih
  | graph _ hi hl hm ih => exact .graph ih hi hl hm
  | included _ _ hl hm ih => exact .included ih hl hm
  | property _ _ hl hm ih => exact .property ih hl hm
  | reverse _ _ hr hl hm ih => exact .reverse ih hr hl hm

/-- What the document says about values is what it asserts about properties. -/
theorem states_asserts {d : Doc} (hn : AllNamed d) {g : Option Id} {s k : Id} {o : Obj} (h : States d g s k o) :
    ∃ x, Asserts d ⟨g, s, .ref k, x⟩ ∧ asReference x = .obj o := by
  cases h with
  | forward h1 h2 h3 h4 => exact ⟨_, .property (occurs_reached hn h1) h2 h3 h4, rfl⟩
  | backward h1 h2 h3 h4 h5 =>
    obtain ⟨i, hi⟩ := Option.isSome_iff_exists.1 (hn _ _ h1)
    exact ⟨_, .reverse (occurs_reached hn h1) hi h2 h3 h4 h5, rfl⟩

theorem asserts_states {d : Doc} {g : Option Id} {s k : Id} {x : QObj} (h : Asserts d ⟨g, s, .ref k, x⟩) :
    ∃ o, States d g s k o ∧ asReference x = .obj o := by
  cases h with
  | property h1 h2 h3 h4 => exact ⟨_, .forward (reached_occurs h1) h2 h3 h4, rfl⟩
  | reverse h1 _ h2 h3 h4 h5 => exact ⟨_, .backward (reached_occurs h1) h2 h3 h4 h5, rfl⟩

/-- What can be reached in a flat document. -/
def FlatItem (f : List Node) (g : Option Id) : Item → Prop
  | .node p => FlatNode f g p ∨ ∃ i, Obj.node p = bareNode (some i)
  | .obj o => (∃ p, o = .node p ∧ FlatNode f g p) ∨ FlatValue o

theorem flatValues_mem {l : List Obj} (h : FlatValues l) {o : Obj} (ho : o ∈ l) : FlatValue o := by
  induction l with
  | nil => cases ho
  | cons a l ih =>
    rcases List.mem_cons.1 ho with rfl | ho
    · exact h.1
    · exact ih h.2 ho

theorem flat_reached {f : List Node}
    (hm : ∀ p ∈ f, ∀ l, p.graph = some l → ∃ ns : List Node, l = ns.map Obj.node)
    (hp : ∀ g p, FlatNode f g p → p.included = none ∧ p.rev = none ∧ (g ≠ none → p.graph = none) ∧
      ∀ k os, (k, os) ∈ p.props → ∀ o ∈ os, FlatValue o) {g : Option Id} {x : Item}
    (h : Reached (f.map Obj.node) g x) : FlatItem f g x := by
  induction h with
  | top ho =>
    obtain ⟨p, hp, rfl⟩ := List.mem_map.1 ho
    exact .inl ⟨p, rfl, hp⟩
  | self _ ih =>
    rcases ih with ⟨p, e, h⟩ | h
    · cases e; exact .inl h
    · exact .inr h
  | item _ ho ih =>
    rcases ih with ⟨p, e, h⟩ | h
    · cases e
    · exact .inr (flatValues_mem h ho)
  | @graph g n id l o _ hi hl ho ih =>
    rcases ih with h | ⟨i, e⟩
    · cases g with
      | none =>
        obtain ⟨ns, rfl⟩ := hm n h l hl
        obtain ⟨p, hp, rfl⟩ := List.mem_map.1 ho
        exact .inl ⟨p, rfl, n, h, hi, _, hl, ho⟩
      | some j =>
        rw [(hp _ _ h).2.2.1 nofun] at hl
        cases hl
    · cases e; cases hl
  | included _ _ hl _ ih =>
    rcases ih with h | ⟨i, e⟩
    · rw [(hp _ _ h).1] at hl; cases hl
    · cases e; cases hl
  | property _ _ hl ho ih =>
    rcases ih with h | ⟨i, e⟩
    · exact .inr ((hp _ _ h).2.2.2 _ _ hl _ ho)
    · cases e; cases hl
  | reverse _ _ hl _ _ ih =>
    rcases ih with h | ⟨i, e⟩
    · rw [(hp _ _ h).2.1] at hl; cases hl
    · cases e; cases hl

theorem flatNode_reached {f : List Node} {g : Option Id} {p : Node} (h : FlatNode f g p) :
    Reached (f.map Obj.node) g (.node p) := by
  cases g with
  | none => exact .self (.top (List.mem_map_of_mem h))
  | some i =>
    obtain ⟨m, hm, hi, l, hl, hp⟩ := h
    exact .self (.graph (.self (.top (List.mem_map_of_mem hm))) hi hl hp)

/-- The statements of a flat document are those of its nodes. -/
theorem flat_asserts {f : List Node}
    (hm : ∀ p ∈ f, ∀ l, p.graph = some l → ∃ ns : List Node, l = ns.map Obj.node)
    (hp : ∀ g p, FlatNode f g p → p.included = none ∧ p.rev = none ∧ (g ≠ none → p.graph = none) ∧
      ∀ k os, (k, os) ∈ p.props → ∀ o ∈ os, FlatValue o) {q : Quad}
    (h : Asserts (f.map Obj.node) q) : ∃ p, FlatNode f q.graph p ∧ p.id = some q.subject ∧
      ((∃ ts t, p.types = some ts ∧ t ∈ ts ∧ q.property = .type ∧ q.object = .ref t) ∨
        ∃ k os o, (k, os) ∈ p.props ∧ o ∈ os ∧ q.property = .ref k ∧ q.object = .obj o) := by
  cases h with
  | type h1 h2 h3 h4 =>
    rcases flat_reached hm hp h1 with h | ⟨i, e⟩
    · exact ⟨_, h, h2, .inl ⟨_, _, h3, h4, rfl, rfl⟩⟩
    · cases e; cases h3
  | property h1 h2 h3 h4 =>
    rcases flat_reached hm hp h1 with h | ⟨i, e⟩
    · exact ⟨_, h, h2, .inr ⟨_, _, _, h3, h4, rfl, rfl⟩⟩
    · cases e; cases h3
  | reverse h1 _ h3 =>
    rcases flat_reached hm hp h1 with h | ⟨i, e⟩
    · rw [(hp _ _ h).2.1] at h3; cases h3
    · cases e; cases h3

/-- A reference has the RDF value of the object. -/
theorem reference_rdf {env : RdfEnv} {dir : Option RdfDirection} {o : QObj} (h : PlainObject o) :
    (asReference o).rdf env dir 0 = o.rdf env dir 0 ∧ PlainObject (asReference o) := by
  cases o with
  | ref i => exact ⟨rfl, trivial⟩
  | node m =>
    refine ⟨?_, trivial⟩
    simp [asReference, bareNode, QObj.rdf, Obj.rdf, Node.rdfValue, Node.id]
  | obj o =>
    cases o with
    | list => exact h.elim
    | value i v => exact ⟨rfl, h⟩
    | node m =>
      refine ⟨?_, trivial⟩
      simp [asReference, reference, bareNode, QObj.rdf, Obj.rdf, Node.rdfValue, Node.id]

theorem asReference_plain {o : QObj} (h : PlainObject (asReference o)) : PlainObject o := by
  cases o with
  | ref i => trivial
  | node m => trivial
  | obj o =>
    cases o with
    | list => exact h.elim
    | value i v => exact h
    | node m => trivial

/-- A reference has an RDF value if the object has. -/
theorem reference_representable (env : RdfEnv) :
    (∀ o, Representable env o → Representable env (reference o)) ∧ (∀ _ : Node, True) := by
  apply Doc.ind
  · intro i v h; exact h
  · intro i l ih h
    replace h : RepresentableAll env l := h
    show RepresentableAll env (references l)
    induction l with
    | nil => trivial
    | cons o os iho =>
      exact ⟨ih o List.mem_cons_self h.1, iho (fun x hx => ih x (List.mem_cons_of_mem _ hx)) h.2⟩
  · intro n _ h; exact h
  · intros; trivial

theorem asReference_representable {env : RdfEnv} {o : QObj} (h : RepresentableObj env o) :
    RepresentableObj env (asReference o) := by
  cases o with
  | ref i => exact h
  | node m => exact h
  | obj o => exact (reference_representable env).1 o h

end JsonLd
