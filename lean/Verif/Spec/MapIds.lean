import Verif.Model.Rdf
import Verif.Spec.Inside
/-!
# Replacing identifiers
-/

namespace JsonLd.Spec

/-- The value with `g` applied to its type. -/
def retypeValue (g : Str → Str) : Value → Value
  | .literal l (some t) => .literal l (some (g t))
  | v => v

mutual
/-- The object with `f` applied to every identifier (of nodes, types, properties and reverse
properties) and `g` to every type of a value, at every depth. Everything else is kept. -/
def replaceObj (f : Id → Id) (g : Str → Str) : Obj → Obj
  | .value i v => .value i (retypeValue g v)
  | .list i l => .list i (replaceObjs f g l)
  | .node n => .node (replaceNode f g n)
/-- See `replaceObj`. -/
def replaceNode (f : Id → Id) (g : Str → Str) : Node → Node
  | .mk i id ty gr inc ps rv =>
    .mk i (id.map f) (ty.map (List.map f)) (replaceG f g gr) (replaceInc f g inc)
      (replacePs f g ps) (replaceRv f g rv)
/-- See `replaceObj`. -/
def replaceG (f : Id → Id) (g : Str → Str) : Option (List Obj) → Option (List Obj)
  | none => none
  | some l => some (replaceObjs f g l)
/-- See `replaceObj`. -/
def replaceInc (f : Id → Id) (g : Str → Str) : Option (List Node) → Option (List Node)
  | none => none
  | some l => some (replaceNodes f g l)
/-- See `replaceObj`. -/
def replaceRv (f : Id → Id) (g : Str → Str) :
    Option (List (Id × List Node)) → Option (List (Id × List Node))
  | none => none
  | some l => some (replaceRps f g l)
/-- See `replaceObj`. -/
def replaceObjs (f : Id → Id) (g : Str → Str) : List Obj → List Obj
  | [] => []
  | o :: os => replaceObj f g o :: replaceObjs f g os
/-- See `replaceObj`. -/
def replaceNodes (f : Id → Id) (g : Str → Str) : List Node → List Node
  | [] => []
  | o :: os => replaceNode f g o :: replaceNodes f g os
/-- See `replaceObj`. -/
def replacePs (f : Id → Id) (g : Str → Str) : List (Id × List Obj) → List (Id × List Obj)
  | [] => []
  | (k, l) :: ps => (f k, replaceObjs f g l) :: replacePs f g ps
/-- See `replaceObj`. -/
def replaceRps (f : Id → Id) (g : Str → Str) : List (Id × List Node) → List (Id × List Node)
  | [] => []
  | (k, l) :: ps => (f k, replaceNodes f g l) :: replaceRps f g ps
end

/-- The document with its identifiers replaced. -/
def replaceIds (f : Id → Id) (g : Str → Str) (d : Doc) : Doc := replaceObjs f g d

/-- The identifier is written in the node itself: as its identifier, one of its types, properties or
reverse properties. -/
def WritesId (n : Node) (i : Id) : Prop :=
  n.id = some i ∨ (∃ ts, n.types = some ts ∧ i ∈ ts) ∨ (∃ l, (i, l) ∈ n.props) ∨
    ∃ r l, n.rev = some r ∧ (i, l) ∈ r

/-- The identifier occurs in the document. -/
def IdIn (d : Doc) (i : Id) : Prop := ∃ n, Inside d (.node n) ∧ WritesId n i

/-- The value type occurs in the document. -/
def TypeIn (d : Doc) (t : Str) : Prop :=
  ∃ i l, Inside d (.obj (.value i (.literal l (some t))))

/-- The statement with its identifiers replaced. -/
def replaceQuad (f : Id → Id) (g : Str → Str) (q : Quad) : Quad :=
  ⟨q.graph.map f, f q.subject,
    match q.property with
    | .type => .type
    | .ref i => .ref (f i),
    match q.object with
    | .obj o => .obj (replaceObj f g o)
    | .node n => .node (replaceNode f g n)
    | .ref i => .ref (f i)⟩

end JsonLd.Spec
