import Verif.Spec.Flat
import Verif.Spec.NodeMap
/-!
# Graph entries of a node map
-/

namespace JsonLd.Spec

/-- The object `o` is a member of the graph of a node that occurs in the graph `g` under the identifier `s`. -/
def GraphMember (d : Doc) (g : Option Id) (s : Id) (o : Obj) : Prop :=
  ∃ n l, Occurs d g (.node n) ∧ n.id = some s ∧ n.graph = some l ∧ o ∈ l

end JsonLd.Spec
