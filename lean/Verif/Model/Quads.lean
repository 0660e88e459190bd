import Verif.Model.Doc
import Verif.Model.Iter
/-!
# The statements of a document (`crates/core/src/quad.rs`)
-/

namespace JsonLd

/-- `enum PropertyRef`, quad.rs:19-22. -/
inductive QProp where
  | type
  | ref (i : Id)
  deriving DecidableEq, Repr

/-- `enum ObjectRef`, quad.rs:24-28. -/
inductive QObj where
  | obj (o : Obj)
  | node (n : Node)
  | ref (i : Id)

/-- `struct QuadRef`, quad.rs:12-17. -/
structure Quad where
  graph : Option Id
  subject : Id
  property : QProp
  object : QObj

/-- `enum QuadsFrame`, quad.rs:68-115. A frame holds what its iterator has still to give;
`IndexedObjectSet` and `IndexedObjectSlice` are `objs`, `IndexedNodeSet`, `IndexedNodeSlice` and
`NodeMapGraph` are `nodes`. -/
inductive Frame where
  | objs (g : Option Id) (l : List Obj)
  | nodes (g : Option Id) (l : List Node)
  | types (g : Option Id) (s : Id) (l : List Id)
  | props (g : Option Id) (s : Id) (l : List (Id × List Obj))
  | revs (g : Option Id) (o : Node) (l : List (Id × List Node))
  | propObjs (g : Option Id) (s p : Id) (l : List Obj)
  | revSubs (g : Option Id) (o : Node) (p : Id) (l : List Node)

/-- `Quads::push_node`, quad.rs:128-158. The head of the list is the top of the stack. -/
def pushNode (g : Option Id) (n : Node) (st : List Frame) : List Frame :=
  match n.id with
  | none => st
  | some id =>
    (n.types.map fun ts => Frame.types g id ts).toList ++
    Frame.props g id n.props ::
    (n.rev.map fun r => Frame.revs g n r).toList ++
    (n.included.map fun l => Frame.nodes g l).toList ++
    (n.graph.map fun l => Frame.objs (some id) l).toList ++ st

/-- `Quads::push_object`, quad.rs:118-126. -/
def pushObject (g : Option Id) : Obj → List Frame → List Frame
  | .node n, st => pushNode g n st
  | .list _ l, st => .objs g l :: st
  | .value _ _, st => st

/-- One turn of the loop of `Quads::next`, quad.rs:163-302. -/
def quadStep : List Frame → Outcome (List Frame) Quad
  | [] => .stop []
  | .objs _ [] :: st => .again st
  | .objs g (o :: l) :: st => .again (pushObject g o (.objs g l :: st))
  | .nodes _ [] :: st => .again st
  | .nodes g (n :: l) :: st => .again (pushNode g n (.nodes g l :: st))
  | .types _ _ [] :: st => .again st
  | .types g s (t :: l) :: st => .emit ⟨g, s, .type, .ref t⟩ (.types g s l :: st)
  | .props _ _ [] :: st => .again st
  | .props g s ((p, os) :: l) :: st => .again (.propObjs g s p os :: .props g s l :: st)
  | .revs _ _ [] :: st => .again st
  | .revs g n ((p, ss) :: l) :: st => .again (.revSubs g n p ss :: .revs g n l :: st)
  | .propObjs _ _ _ [] :: st => .again st
  | .propObjs g s p (o :: l) :: st =>
    .emit ⟨g, s, .ref p, .obj o⟩ (pushObject g o (.propObjs g s p l :: st))
  | .revSubs _ _ _ [] :: st => .again st
  | .revSubs g n p (s :: l) :: st =>
    match s.id with
    | some id => .emit ⟨g, id, .ref p, .node n⟩ (pushNode g s (.revSubs g n p l :: st))
    | none => .again (pushNode g s (.revSubs g n p l :: st))

/-- The loop of `Quads::next`. -/
def QuadLoop (s : List Frame) (o : Outcome (List Frame) Quad) : Prop := quadStep s = o

/-- `ExpandedDocument::quads`, quad.rs:34-40. -/
def Doc.quadsInit (d : Doc) : List Frame := [.objs none d]

/-- `FlattenedDocument::quads`, quad.rs:42-48. -/
def flatQuadsInit (f : List Node) : List Frame := [.nodes none f]

end JsonLd
