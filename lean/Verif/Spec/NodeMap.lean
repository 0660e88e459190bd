import Verif.Model.Flatten
import Verif.Model.Quads
/-!
# What a node map says
-/

namespace JsonLd.Spec

/-- `InMap m g n`: the node `n` is a node of the graph `g` of the map (`none` for the default
graph). -/
def InMap (m : NodeMap) (g : Option Id) (n : Node) : Prop :=
  match g with
  | none => ∃ i, (i, n) ∈ m.default
  | some g => ∃ G, (g, G) ∈ m.graphs ∧ ∃ i, (i, n) ∈ G

/-- The statements of a node map: the types and the properties of its nodes. -/
inductive MapStates (m : NodeMap) : Quad → Prop where
  | type {g : Option Id} {n : Node} {s t : Id} {ts : List Id} : InMap m g n → n.id = some s →
      n.types = some ts → t ∈ ts → MapStates m ⟨g, s, .type, .ref t⟩
  | property {g : Option Id} {n : Node} {s k : Id} {os : List Obj} {o : Obj} : InMap m g n →
      n.id = some s → (k, os) ∈ n.props → o ∈ os → MapStates m ⟨g, s, .ref k, .obj o⟩

/-- Every node is under its own identifier, and the keys of the default graph are distinct. -/
structure WellKeyed (m : NodeMap) : Prop where
  keys : (m.default.map Prod.fst).Nodup
  default : ∀ x n, (x, n) ∈ m.default → n.id = some x
  named : ∀ g G, (g, G) ∈ m.graphs → ∀ x n, (x, n) ∈ G → n.id = some x

/-- The values `vs` are values of `k` in `r`, each as it is or through an equivalent one. -/
def Holds {α : Type} (eqv : α → α → Bool) (k : Id) (vs : List α) (r : List (Id × List α)) : Prop :=
  ∀ v ∈ vs, ∃ os o, (k, os) ∈ r ∧ o ∈ os ∧ (o = v ∨ eqv o v = true)

end JsonLd.Spec
