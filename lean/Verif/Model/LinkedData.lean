import Verif.Model.Rdf
/-!
# Documents as linked data (`crates/core/src/deserialization`)

The traits of the external crate `linked_data` let a visitor see a value as a resource (its term)
and as a subject (its predicates). What a visitor sees is modelled as a tree. The vocabulary and the
interpretation are `()`, as in `serialize` (crates/serialization/src/lib.rs:46-48): terms stand for
themselves.
-/

namespace JsonLd

/-- `xsd_types::Value` (external crate): booleans, strings, the numeric types derived from
`xsd:decimal`, and other types; the texts are those of `Display`. -/
inductive XsdVal where
  | bool (b : Bool)
  | str (s : Str)
  | num (ty text : Str)
  | other (ty text : Str)
  deriving DecidableEq, Repr

/-- `RdfLiteral` (external crate). -/
inductive LLit where
  | any (s ty : Str)
  | lang (s tag : Str)
  | xsd (v : XsdVal)
  | json (j : Json)
  deriving DecidableEq

/-- The lexical representation of a resource (external crate): an identifier or a literal. -/
inductive LTerm where
  | id (i : Id)
  | lit (l : LLit)
  deriving DecidableEq

mutual
/-- A resource with what `visit_subject` tells about it (external crate). -/
inductive LD where
  | mk (term : Option LTerm) (visits : List LVisit)
/-- A call of a `SubjectVisitor` (external crate). The objects are those given to
`PredicateObjectsVisitor::object`, the subjects those given to `GraphVisitor::subject`. -/
inductive LVisit where
  | predicate (p : Option LTerm) (objects : List LD)
  | reverse (p : Option LTerm) (objects : List LD)
  | graph (subjects : List LD)
  | included (v : LD)
end

/-- A call of a `Visitor` (external crate). -/
inductive LGraph where
  | default (subjects : List LD)
  | named (term : Option LTerm) (subjects : List LD)

/-- External functions: `LenientLangTag::as_well_formed`, `Number::as_i64` (printed),
`Number::as_f64_lossy` (printed as `xsd:double`), and the parsers of the XSD datatypes. -/
structure LdEnv where
  wellFormed : Str → Bool
  asI64 : Str → Option Str
  double : Str → Str
  xsdParse : Str → Str → Option XsdVal
  isNumber : Str → Bool

/-- `Value::interpretation` for numbers, deserialization/object/value.rs:25-42 and 59-68. -/
def numTerm (E : LdEnv) (n : Str) : Option Str → LLit
  | some ty => match E.xsdParse ty n with
    | some v => .xsd v
    | none => .any n ty
  | none => match E.asI64 n with
    | some i => .xsd (.num (xsdNs "integer") i)
    | none => .xsd (.other (xsdNs "double") (E.double n))

/-- `Value::interpretation`, deserialization/object/value.rs:9-57. -/
def Value.ldTerm (E : LdEnv) : Value → LLit
  | .literal .null _ => .xsd (.str "null".toList)
  | .literal (.bool b) _ => .xsd (.bool b)
  | .literal (.num n) ty => numTerm E n ty
  | .literal (.str s) (some ty) => .any s ty
  | .literal (.str s) none => .xsd (.str s)
  | .langString s => match s.language with
    | some tag => if E.wellFormed tag then .lang s.data tag else .xsd (.str s.data)
    | none => .xsd (.str s.data)
  | .json j => .json j

/-- An identifier as a resource: `if let Id::Valid(id)`, node.rs:19-22. -/
def Id.ldTerm : Id → Option LTerm
  | .invalid _ => none
  | i => some (.id i)

/-- `Types`, node.rs:129-150: identifiers have no predicates. -/
def typesLD : List Id → List LD
  | [] => []
  | t :: ts => match t.ldTerm with
    | some x => .mk (some x) [] :: typesLD ts
    | none => typesLD ts

/-- The visit of the types, node.rs:36-38. -/
def typesVisit : Option (List Id) → List LVisit
  | none => []
  | some [] => []
  | some ts => [.predicate (some (.id rdfType)) (typesLD ts)]

mutual
/-- `LinkedDataResource` and `LinkedDataSubject` for `Object`, deserialization/object/mod.rs:12-46. -/
def Obj.toLD (E : LdEnv) : Obj → LD
  | .value _ v => .mk (some (.lit (v.ldTerm E))) []
  | .list _ l => restLD E l
  | .node n => n.toLD E
/-- `visit_objects` for the first item of a list, deserialization/object/mod.rs:48-65: values tell
nothing (value.rs:80-87). -/
def firstLD (E : LdEnv) : Obj → List LD
  | .value _ _ => []
  | .list _ l => [restLD E l]
  | .node n => [n.toLD E]
/-- `Rest`, deserialization/object/list.rs:83-130. -/
def restLD (E : LdEnv) : List Obj → LD
  | [] => .mk none []
  | o :: os => .mk none [.predicate (some (.id rdfFirst)) (firstLD E o),
      .predicate (some (.id rdfRest)) [restLD E os]]
/-- `LinkedDataResource` and `LinkedDataSubject` for `Node`, deserialization/object/node.rs:9-66. -/
def Node.toLD (E : LdEnv) : Node → LD
  | .mk x id ty g inc ps rv =>
    .mk (id.bind Id.ldTerm) (typesVisit ty ++ propsLD E ps ++ revLD E rv ++
      graphLD E (Node.mk x id ty g inc ps rv).isGraph g ++ includedLD E inc)
/-- The properties, node.rs:40-44. -/
def propsLD (E : LdEnv) : List (Id × List Obj) → List LVisit
  | [] => []
  | (p, os) :: ps => match p.ldTerm with
    | some x => .predicate (some x) (objsLD E os) :: propsLD E ps
    | none => propsLD E ps
/-- The reverse properties, node.rs:46-52. -/
def revLD (E : LdEnv) : Option (List (Id × List Node)) → List LVisit
  | none => []
  | some ps => revsLD E ps
/-- The reverse properties, node.rs:47-51. -/
def revsLD (E : LdEnv) : List (Id × List Node) → List LVisit
  | [] => []
  | (p, ns) :: ps => match p.ldTerm with
    | some x => .reverse (some x) (nodesLD E ns) :: revsLD E ps
    | none => revsLD E ps
/-- The graph, node.rs:54-56, of graph objects only. -/
def graphLD (E : LdEnv) : Bool → Option (List Obj) → List LVisit
  | true, some g => [.graph (objsLD E g)]
  | _, _ => []
/-- The included nodes, node.rs:58-62. -/
def includedLD (E : LdEnv) : Option (List Node) → List LVisit
  | none => []
  | some ns => includesLD E ns
/-- The included nodes, node.rs:59-61. -/
def includesLD (E : LdEnv) : List Node → List LVisit
  | [] => []
  | n :: ns => .included (n.toLD E) :: includesLD E ns
/-- `Objects`, node.rs:152-171. -/
def objsLD (E : LdEnv) : List Obj → List LD
  | [] => []
  | o :: os => o.toLD E :: objsLD E os
/-- `Nodes`, node.rs:173-192. -/
def nodesLD (E : LdEnv) : List Node → List LD
  | [] => []
  | n :: ns => n.toLD E :: nodesLD E ns
end

/-- `LinkedData for ExpandedDocument`, deserialization/mod.rs:8-40. -/
def Doc.toLD (E : LdEnv) (d : Doc) : List LGraph := [.default (objsLD E d)]

/-- `LinkedDataGraph for Node`, node.rs:84-107. -/
def Node.graphSubjects (E : LdEnv) (n : Node) : List LD :=
  match n.graph with
  | some g => objsLD E g
  | none => [n.toLD E]

/-- `LinkedData for Node`, node.rs:109-127. -/
def Node.visits (E : LdEnv) (n : Node) : List LGraph :=
  if n.isGraph then [.named (n.id.bind Id.ldTerm) (n.graphSubjects E)]
  else [.default (n.graphSubjects E)]

end JsonLd
