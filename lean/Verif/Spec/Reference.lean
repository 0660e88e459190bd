import Verif.Spec.Flat
import Verif.Model.Rdf
/-!
# Statements about nodes described elsewhere
-/

namespace JsonLd.Spec

/-- The object of a statement, with references in place of nodes. -/
def asReference : QObj → QObj
  | .obj o => .obj (reference o)
  | .node n => .obj (bareNode n.id)
  | .ref i => .ref i

/-- Each node has the same types wherever it is given some, and a node with types in a named graph
also has a property or an index in that graph. -/
def TypesAgree (d : Doc) : Prop :=
  ∀ g q s ts, Occurs d g (.node q) → q.id = some s → q.types = some ts →
    (∀ q' ts', Occurs d g (.node q') → q'.id = some s → q'.types = some ts' → ts' = ts) ∧
    (g = none ∨ (∃ k o, States d g s k o) ∨
      ∃ q' a, Occurs d g (.node q') ∧ q'.id = some s ∧ q'.index = some a)

end JsonLd.Spec
