import Verif.Spec.Rdf
import Verif.Model.Ser
/-!
# When a document states the quads it was built from

Only data types (`Interp`, `IQuad`, documents) are taken from the model.
-/

namespace JsonLd.Spec

section
variable {R : Type} (I : Interp R)

/-- The resource is an IRI or a blank node, with this one name. -/
inductive Name (r : R) : Id → Prop where
  | iri {i : Str} : I.iris r = [i] → I.blanks r = [] → Name r (.iri i)
  | blank {b : Str} : I.iris r = [] → I.blanks r = [b] → Name r (.blank b)

/-- The resource is this one literal. -/
def IsLit (r : R) (text : Str) (ty : LitType) : Prop :=
  I.iris r = [] ∧ I.blanks r = [] ∧ I.literals r = [(text, ty)]

/-- The quads are quads of IRIs, blank nodes and literals: subjects, properties, graphs and types are
named; objects are named or literals; different resources have different names. -/
structure PlainQuads (qs : List (IQuad R)) : Prop where
  subject : ∀ q ∈ qs, ∃ i, Name I q.subject i
  property : ∀ q ∈ qs, ∃ i, Name I q.property i
  object : ∀ q ∈ qs, (∃ i, Name I q.object i) ∨ ∃ text ty, IsLit I q.object text ty
  type : ∀ q ∈ qs, Name I q.property rdfType → ∃ i, Name I q.object i
  graph : ∀ q ∈ qs, ∀ g, q.graph = some g → ∃ i, Name I g i
  inj : ∀ r r' i, Name I r i → Name I r' i → r = r'

/-- The value is the one of the literal. -/
inductive LitMeans (text : Str) : LitType → Value → Prop where
  | json {j : Json} : I.parseJson text = some j → LitMeans text (.any (rdfNs "JSON")) (.json j)
  | true : text = "true".toList ∨ text = "1".toList →
      LitMeans text (.any (xsdNs "boolean")) (.literal (.bool true) (some (xsdNs "boolean")))
  | false : text = "false".toList ∨ text = "0".toList →
      LitMeans text (.any (xsdNs "boolean")) (.literal (.bool false) (some (xsdNs "boolean")))
  | number {ty : Str} {n : Str} : ty = xsdNs "integer" ∨ ty = xsdNs "double" →
      I.parseNumber text = some n → LitMeans text (.any ty) (.literal (.num n) (some ty))
  | string : LitMeans text (.any (xsdNs "string")) (.literal (.str text) none)
  | other {ty : Str} : ty ≠ rdfNs "JSON" → ty ≠ xsdNs "boolean" → ty ≠ xsdNs "integer" →
      ty ≠ xsdNs "double" → ty ≠ xsdNs "string" → LitMeans text (.any ty) (.literal (.str text) (some ty))
  | lang {tag : Str} : LitMeans text (.lang tag) (.langString ⟨text, some tag, none⟩)

/-- The object stands for the resource. -/
inductive Stands (r : R) : QObj → Prop where
  | ref {i : Id} : Name I r i → Stands r (.ref i)
  | node {n : Node} {i : Id} : Name I r i → n.id = some i → Stands r (.obj (.node n))
  | value {text : Str} {ty : LitType} {v : Value} : IsLit I r text ty → LitMeans I text ty v →
      Stands r (.obj (.value none v))

/-- The graphs are the same. -/
inductive SameGraph : Option R → Option Id → Prop where
  | default : SameGraph none none
  | named {r : R} {i : Id} : Name I r i → SameGraph (some r) (some i)

/-- The statement is the quad. -/
structure SameQuad (q : IQuad R) (x : Quad) : Prop where
  graph : SameGraph I q.graph x.graph
  subject : Name I q.subject x.subject
  property : Name I q.property (property x.property)
  object : Stands I q.object x.object

variable [DecidableEq R]

/-- In the quads, the resource is the object of exactly one quad of the graph. -/
def ReferredOnce (qs : List (IQuad R)) (g : Option R) (r : R) : Prop :=
  ∃ q, qs.filter (fun q => decide (q.graph = g) && decide (q.object = r)) = [q]

/-- The resource is found by following quads, other than those giving a type, from a resource that is
not the object of exactly one quad of the graph. -/
inductive Shown (qs : List (IQuad R)) (g : Option R) : R → Prop where
  | root {r : R} : ¬ ReferredOnce qs g r → Shown qs g r
  | special {q : IQuad R} : q ∈ qs → q.graph = g → q.property = q.object → Shown qs g q.object
  | step {q : IQuad R} : q ∈ qs → q.graph = g → ¬ Name I q.property rdfType → Shown qs g q.subject →
      Shown qs g q.object

/-- The subject of the quad is found in its graph, and the graph in the default graph. -/
def Visible (qs : List (IQuad R)) (q : IQuad R) : Prop :=
  Shown I qs q.graph q.subject ∧ ∀ g, q.graph = some g → Shown I qs none g

omit [DecidableEq R] in
/-- If there is a quad with `rdf:first`, one comes after the last quad giving a type. -/
def FirstKept (qs : List (IQuad R)) : Prop :=
  ∀ pre q post, qs = pre ++ q :: post → Name I q.property rdfType →
    (∃ x ∈ qs, Name I x.property rdfFirst) → ∃ x ∈ post, Name I x.property rdfFirst

end
end JsonLd.Spec
