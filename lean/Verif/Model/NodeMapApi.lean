import Verif.Model.PropMap
import Verif.Model.Rdf
/-!
# Statements of a node map, and merging of its graphs (`crates/core/src/flattening/node_map.rs`,
`crates/core/src/quad.rs`, `crates/core/src/rdf/quad.rs`)

As in `Model/Flatten.lean`, hash maps are lists of pairs, and the orders in which they are iterated
are given (`Orders`).
-/

namespace JsonLd

/-- `NodeMap::iter`, node_map.rs:43-48 and 97-107: the default graph, then the named ones. -/
def NodeMap.iter (o : Orders) (m : NodeMap) : List (Option Id × NMGraph) :=
  (none, m.default) :: (o.graphs m.graphs).map fun G => (some G.1, G.2)

/-- `NodeMapGraph::nodes`, node_map.rs:264-266, of the graph `G.1`. -/
def nodesInOrder (o : Orders) (G : Option Id × NMGraph) : List Node := (o.nodes G.1 G.2).map Prod.snd

/-- `NodeMap::quads`, quad.rs:50-60. Every graph is pushed on the stack: the last one is on top. -/
def NodeMap.quadsInit (o : Orders) (m : NodeMap) : List Frame :=
  (m.iter o).foldl (fun st G => .nodes G.1 (nodesInOrder o G) :: st) []

/-- `NodeMap::rdf_quads_full`, rdf/quad.rs:228-246. -/
def NodeMap.rdfInit (o : Orders) (m : NodeMap) : RdfState := ⟨none, m.quadsInit o, 0⟩

/-- `Indexed::set_index` if there is an index, node_map.rs:240-242. -/
def Node.overrideIndex (i : Option Str) (n : Node) : Node :=
  match i with
  | some i => n.setIndex (some i)
  | none => n

/-- The updates of `flat_node`, node_map.rs:248-261: `types_mut_or_default` (node/mod.rs:260-262),
`set_graph_entry` (346-348), `set_included` (379-381), `extend_unique` (properties.rs:168-176) and
`reverse_properties_or_default` (node/mod.rs:611-614). -/
def Node.mergeFrom (flat : Node) : Node → Node
  | .mk _ _ ty gr inc ps rv =>
    .mk flat.index flat.id
      (match ty with
        | some ts => some (flat.types.getD [] ++ ts)
        | none => flat.types)
      gr inc (PropMap.extendUnique Obj.equiv flat.props ps)
      (match rv with
        | some r => some (PropMap.extendUnique Node.equiv (flat.rev.getD []) r)
        | none => flat.rev)

/-- `NodeMapGraph::merge_node`, node_map.rs:229-262. -/
def mergeNode (G : NMGraph) (n : Node) : NMGraph :=
  match n.id with
  | none => G
  | some id =>
    match lookupProp id G with
    | some e => setKey id ((e.overrideIndex n.index).mergeFrom n) G
    | none => G ++ [(id, (Node.withId id n.index).mergeFrom n)]

/-- `NodeMapGraph::merge_with`, node_map.rs:211-219, where `other` is already in the order of
iteration. -/
def mergeWith (G : NMGraph) (other : List Node) : NMGraph := other.foldl mergeNode G

/-- `NodeMap::merge`, node_map.rs:81-92. -/
def NodeMap.merge (o : Orders) (m : NodeMap) : NMGraph :=
  (o.graphs m.graphs).foldl (fun G H => mergeWith G (nodesInOrder o (some H.1, H.2))) m.default

end JsonLd
