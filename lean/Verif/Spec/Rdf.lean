import Verif.Model.Rdf
import Verif.Spec.Inside
/-!
# The statements of a document, and what RDF terms stand for

Only data types and the conversion of single values are taken from the model.
-/

namespace JsonLd.Spec

/-! ## Statements -/

/-- The item is in the document, in the given graph, reached through nodes with identifiers. -/
inductive Reached (d : Doc) : Option Id → Item → Prop where
  | top {o : Obj} : o ∈ d → Reached d none (.obj o)
  | self {g : Option Id} {n : Node} : Reached d g (.obj (.node n)) → Reached d g (.node n)
  | item {g : Option Id} {i : Option Str} {l : List Obj} {o : Obj} :
      Reached d g (.obj (.list i l)) → o ∈ l → Reached d g (.obj o)
  | graph {g : Option Id} {n : Node} {id : Id} {l : List Obj} {o : Obj} : Reached d g (.node n) →
      n.id = some id → n.graph = some l → o ∈ l → Reached d (some id) (.obj o)
  | included {g : Option Id} {n : Node} {id : Id} {l : List Node} {m : Node} : Reached d g (.node n) →
      n.id = some id → n.included = some l → m ∈ l → Reached d g (.node m)
  | property {g : Option Id} {n : Node} {id k : Id} {l : List Obj} {o : Obj} : Reached d g (.node n) →
      n.id = some id → (k, l) ∈ n.props → o ∈ l → Reached d g (.obj o)
  | reverse {g : Option Id} {n : Node} {id k : Id} {r : List (Id × List Node)} {l : List Node}
      {m : Node} : Reached d g (.node n) → n.id = some id → n.rev = some r → (k, l) ∈ r → m ∈ l →
      Reached d g (.node m)

/-- The document states this, in this graph. -/
inductive Asserts (d : Doc) : Quad → Prop where
  | type {g : Option Id} {n : Node} {s t : Id} {ts : List Id} : Reached d g (.node n) →
      n.id = some s → n.types = some ts → t ∈ ts → Asserts d ⟨g, s, .type, .ref t⟩
  | property {g : Option Id} {n : Node} {s k : Id} {l : List Obj} {o : Obj} : Reached d g (.node n) →
      n.id = some s → (k, l) ∈ n.props → o ∈ l → Asserts d ⟨g, s, .ref k, .obj o⟩
  | reverse {g : Option Id} {n : Node} {id s k : Id} {r : List (Id × List Node)} {l : List Node}
      {m : Node} : Reached d g (.node n) → n.id = some id → n.rev = some r → (k, l) ∈ r → m ∈ l →
      m.id = some s → Asserts d ⟨g, s, .ref k, .node n⟩

mutual
/-- The statements made by an object, each written once, in reading order. -/
def objQuads (g : Option Id) : Obj → List Quad
  | .value _ _ => []
  | .list _ l => objsQuads g l
  | .node n => nodeQuads g n
/-- The statements made by a node. -/
def nodeQuads (g : Option Id) : Node → List Quad
  | .mk _ none _ _ _ _ _ => []
  | .mk i (some s) ty gr inc ps rv =>
    (ty.getD []).map (fun t => ⟨g, s, .type, .ref t⟩) ++ psQuads g s ps ++
      rvQuads g (.mk i (some s) ty gr inc ps rv) rv ++ incQuads g inc ++ grQuads (some s) gr
/-- The statements inside a graph. -/
def grQuads (g : Option Id) : Option (List Obj) → List Quad
  | none => []
  | some l => objsQuads g l
/-- The statements of included nodes. -/
def incQuads (g : Option Id) : Option (List Node) → List Quad
  | none => []
  | some l => nodesQuads g l
/-- The statements of the reverse properties of the node `n`. -/
def rvQuads (g : Option Id) (n : Node) : Option (List (Id × List Node)) → List Quad
  | none => []
  | some l => rpsQuads g n l
/-- The statements of several objects. -/
def objsQuads (g : Option Id) : List Obj → List Quad
  | [] => []
  | o :: l => objQuads g o ++ objsQuads g l
/-- The statements of several nodes. -/
def nodesQuads (g : Option Id) : List Node → List Quad
  | [] => []
  | n :: l => nodeQuads g n ++ nodesQuads g l
/-- The statements of the properties of the subject `s`. -/
def psQuads (g : Option Id) (s : Id) : List (Id × List Obj) → List Quad
  | [] => []
  | (k, os) :: l => valsQuads g s k os ++ psQuads g s l
/-- The statements of the values of one property. -/
def valsQuads (g : Option Id) (s k : Id) : List Obj → List Quad
  | [] => []
  | o :: l => ⟨g, s, .ref k, .obj o⟩ :: (objQuads g o ++ valsQuads g s k l)
/-- The statements of the reverse properties of the node `n`. -/
def rpsQuads (g : Option Id) (n : Node) : List (Id × List Node) → List Quad
  | [] => []
  | (k, ss) :: l => subsQuads g n k ss ++ rpsQuads g n l
/-- The statements of the subjects of one reverse property. -/
def subsQuads (g : Option Id) (n : Node) (k : Id) : List Node → List Quad
  | [] => []
  | m :: l => (m.id.map fun s => (⟨g, s, .ref k, .node n⟩ : Quad)).toList ++ (nodeQuads g m ++ subsQuads g n k l)
end

/-- The statements of a document, each written once. -/
def statements (d : Doc) : List Quad := objsQuads none d

/-! ## RDF terms -/

section
variable (env : RdfEnv) (dir : Option RdfDirection) (G : Id → Id → Term → Prop)

/-- `h` has one `p`, namely `t`. -/
def Only (h p : Id) (t : Term) : Prop := ∀ t', G h p t' ↔ t' = t

mutual
/-- In the graph `G`, the term stands for the object. -/
inductive Denotes : Obj → Term → Prop where
  | value {i : Option Str} {v : Value} {t : Term} {n n' : Nat} : v.rdf env dir n = some (t, n') →
      Denotes (.value i v) t
  | node {m : Node} {id : Id} : m.id = some id → id.valid = true → Denotes (.node m) (.id id)
  | list {i : Option Str} {l : List Obj} {t : Term} : DenotesList l t → Denotes (.list i l) t
/-- In the graph `G`, the term is the head of a collection with these items: each cell is a generated
identifier with exactly one `rdf:first`, exactly one `rdf:rest` and nothing else, and the last rest is
`rdf:nil`. -/
inductive DenotesList : List Obj → Term → Prop where
  | nil : DenotesList [] (.id rdfNil)
  | cons {o : Obj} {l : List Obj} {k : Nat} {t t' : Term} : Only G (env.gen k) rdfFirst t →
      Only G (env.gen k) rdfRest t' → (∀ p t, G (env.gen k) p t → p = rdfFirst ∨ p = rdfRest) →
      Denotes o t → DenotesList l t' → DenotesList (o :: l) (.id (env.gen k))
end

/-- The term stands for the object of a statement. -/
def DenotesObj : QObj → Term → Prop
  | .obj o, t => Denotes env dir G o t
  | .node n, t => ∃ id, n.id = some id ∧ id.valid = true ∧ t = .id id
  | .ref i, t => i.valid = true ∧ t = .id i

end

mutual
/-- The object has an RDF value: language tags are well-formed, nodes have valid identifiers, and the
same holds of the items of lists. -/
def Representable (env : RdfEnv) : Obj → Prop
  | .value _ (.langString s) => ∀ l, s.language = some l → env.wellFormed l = true
  | .value _ _ => True
  | .list _ l => RepresentableAll env l
  | .node n => ∃ id, n.id = some id ∧ id.valid = true
/-- All of them have. -/
def RepresentableAll (env : RdfEnv) : List Obj → Prop
  | [] => True
  | o :: l => Representable env o ∧ RepresentableAll env l
end

/-- The object of a statement has an RDF value. -/
def RepresentableObj (env : RdfEnv) : QObj → Prop
  | .obj o => Representable env o
  | .node n => ∃ id, n.id = some id ∧ id.valid = true
  | .ref i => i.valid = true

/-- The RDF property of a statement. -/
def property : QProp → Id
  | .type => rdfType
  | .ref i => i

/-- The identifiers of a statement are valid, and its property is not blank unless generalized RDF is
asked for. -/
def Stateable (generalized : Bool) (q : Quad) : Prop :=
  (∀ g, q.graph = some g → g.valid = true) ∧ q.subject.valid = true ∧ (property q.property).valid = true ∧
    (generalized = true ∨ (property q.property).isBlank = false)

end JsonLd.Spec

namespace JsonLd.Spec

/-- The RDF literal of a value without language and direction. -/
inductive LitForm (env : RdfEnv) : Value → Str → Str → Prop where
  | json {j : Json} : LitForm env (.json j) (env.printJson j) (rdfNs "JSON")
  | typed {s t : Str} : LitForm env (.literal (.str s) (some t)) s t
  | string {s : Str} : LitForm env (.literal (.str s) none) s (xsdNs "string")
  | bool {b : Bool} {ty : Option Str} :
      LitForm env (.literal (.bool b) ty) (if b then "true".toList else "false".toList)
        (ty.getD (xsdNs "boolean"))
  | integer {n : Str} {ty : Option Str} : env.isI64 n = true → ty ≠ some (xsdNs "double") →
      LitForm env (.literal (.num n) ty) n (ty.getD (xsdNs "integer"))
  | double {n : Str} {ty : Option Str} : env.isI64 n = false ∨ ty = some (xsdNs "double") →
      LitForm env (.literal (.num n) ty) (env.dtoa n) (ty.getD (xsdNs "double"))
  | null {ty : Option Str} : LitForm env (.literal .null ty) "null".toList (ty.getD (xsdNs "string"))

end JsonLd.Spec
