import Verif.Spec.Inside
import Verif.Base.PermRel
import Verif.Model.DocEq
/-!
# What a document states, and what a flattened document states
-/

namespace JsonLd.Spec

/-- `Occurs d g x`: the item `x` is in the document `d`, at any depth, in the graph `g` (`none` for
the default graph). Only a `@graph` entry changes the graph, to the one named by the node. -/
inductive Occurs (d : Doc) : Option Id → Item → Prop where
  /-- A top-level object is in the default graph. -/
  | top {o : Obj} : o ∈ d → Occurs d none (.obj o)
  /-- Item of a list. -/
  | item {g : Option Id} {i : Option Str} {l : List Obj} {o : Obj} :
      Occurs d g (.obj (.list i l)) → o ∈ l → Occurs d g (.obj o)
  /-- A node object is a node. -/
  | self {g : Option Id} {n : Node} : Occurs d g (.obj (.node n)) → Occurs d g (.node n)
  /-- Member of a `@graph` entry. -/
  | graph {g : Option Id} {n : Node} {i : Id} {l : List Obj} {o : Obj} :
      Occurs d g (.node n) → n.id = some i → n.graph = some l → o ∈ l → Occurs d (some i) (.obj o)
  /-- Member of an `@included` entry. -/
  | included {g : Option Id} {n : Node} {l : List Node} {m : Node} :
      Occurs d g (.node n) → n.included = some l → m ∈ l → Occurs d g (.node m)
  /-- Value of a property. -/
  | property {g : Option Id} {n : Node} {k : Id} {l : List Obj} {o : Obj} :
      Occurs d g (.node n) → (k, l) ∈ n.props → o ∈ l → Occurs d g (.obj o)
  /-- Value of a reverse property. -/
  | reverse {g : Option Id} {n : Node} {r : List (Id × List Node)} {k : Id} {l : List Node}
      {m : Node} : Occurs d g (.node n) → n.rev = some r → (k, l) ∈ r → m ∈ l → Occurs d g (.node m)

/-- A node without any entry but its identifier. -/
def bareNode (i : Option Id) : Obj := .node (.mk none i none none none [] none)

mutual
/-- The object with every node replaced by a reference to it: what remains of a property value once
nodes are described elsewhere. -/
def reference : Obj → Obj
  | .value i v => .value i v
  | .list i l => .list i (references l)
  | .node n => bareNode n.id
/-- See `reference`. -/
def references : List Obj → List Obj
  | [] => []
  | o :: os => reference o :: references os
end

/-- `States d g s k o`: the document says, in the graph `g`, that the node `s` has the value `o` for
the property `k`, either as a property of `s` or as a reverse property of the node `o`. -/
inductive States (d : Doc) : Option Id → Id → Id → Obj → Prop where
  /-- By a property. -/
  | forward {g : Option Id} {n : Node} {s k : Id} {l : List Obj} {o : Obj} :
      Occurs d g (.node n) → n.id = some s → (k, l) ∈ n.props → o ∈ l → States d g s k (reference o)
  /-- By a reverse property. -/
  | backward {g : Option Id} {n m : Node} {s k : Id} {r : List (Id × List Node)} {l : List Node} :
      Occurs d g (.node n) → n.rev = some r → (k, l) ∈ r → m ∈ l → m.id = some s →
      States d g s k (bareNode n.id)

/-- `FlatNode f g n`: the node `n` is a node of the graph `g` of the flattened document `f`: an
element of `f` for the default graph, and an element of the `@graph` entry of the node `i` for the
graph `i`. -/
def FlatNode (f : List Node) (g : Option Id) (n : Node) : Prop :=
  match g with
  | none => n ∈ f
  | some i => ∃ m ∈ f, m.id = some i ∧ ∃ l, m.graph = some l ∧ Obj.node n ∈ l

mutual
/-- A value in which every node is a mere reference: it has an identifier and nothing else. -/
def FlatValue : Obj → Prop
  | .value _ _ => True
  | .list _ l => FlatValues l
  | .node n => ∃ i, Obj.node n = bareNode (some i)
/-- See `FlatValue`. -/
def FlatValues : List Obj → Prop
  | [] => True
  | o :: os => FlatValue o ∧ FlatValues os
end

/-- A node of a flat document: it has an identifier, types and properties at most, properties are listed once, nodes
in their values are mere references, and no value is repeated, lists excepted. -/
structure PlainNode (p : Node) : Prop where
  id : p.id.isSome = true
  included : p.included = none
  rev : p.rev = none
  keys : (p.props.map Prod.fst).Nodup
  values : ∀ k os, (k, os) ∈ p.props → ∀ o ∈ os, FlatValue o
  once : ∀ k os, (k, os) ∈ p.props → os.Pairwise fun a b => a.eq b = true → ∃ i l, a = .list i l

/-- A flat document: every graph has at most one node for each identifier, named graphs are at the top only, and no
node says nothing. -/
structure FlatDoc (f : List Node) : Prop where
  ids : (f.map Node.id).Nodup
  members : ∀ p ∈ f, ∀ l, p.graph = some l → ∃ ns : List Node, l = ns.map Obj.node ∧ (ns.map Node.id).Nodup
  plain : ∀ g p, FlatNode f g p → PlainNode p
  nested : ∀ g p, FlatNode f (some g) p → p.graph = none ∧ (p.index ≠ none ∨ p.props ≠ [])
  top : ∀ p ∈ f, p.index ≠ none ∨ p.types ≠ none ∨ p.graph ≠ none ∨ p.props ≠ []

/-- The nodes differ at most in the order of the elements of `@graph`. -/
structure SameNode (n m : Node) : Prop where
  index : n.index = m.index
  id : n.id = m.id
  types : n.types = m.types
  graph : OptRel List.Perm n.graph m.graph
  included : n.included = m.included
  props : n.props = m.props
  rev : n.rev = m.rev

/-- A node is given two different indexes in the same graph. -/
def IndexConflict (d : Doc) : Prop :=
  ∃ g n m i a b, Occurs d g (.node n) ∧ Occurs d g (.node m) ∧ n.id = some i ∧ m.id = some i ∧
    n.index = some a ∧ m.index = some b ∧ a ≠ b

end JsonLd.Spec
