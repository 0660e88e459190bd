import Verif.Model.LinkedData
import Verif.Model.Expand
/-!
# Serialization of linked data (`crates/serialization`)
-/

namespace JsonLd

/-- `Error`, crates/serialization/src/lib.rs:25-41. -/
inductive LdErr where
  | invalidGraph | invalidPredicate | invalidNode | listReverseProperty | listInclude
  deriving DecidableEq, Repr

/-- `xsd_to_value`, expanded/value.rs:31-65. -/
def xsdToValue (E : LdEnv) : XsdVal → Value
  | .bool b => .literal (.bool b) none
  | .str s => .literal (.str s) none
  | .num ty n => if E.isNumber n then .literal (.num n) none else .literal (.str n) (some ty)
  | .other ty s => .literal (.str s) (some ty)

/-- `literal_to_value`, expanded/value.rs:6-29. -/
def literalToValue (E : LdEnv) : LLit → Value
  | .any s ty => .literal (.str s) (if ty = xsdNs "string" then none else some ty)
  | .lang s tag => .langString { data := s, language := some tag, direction := none }
  | .xsd v => xsdToValue E v
  | .json j => .json j

/-- `Properties::set`, crates/core/src/object/node/properties.rs; `ReverseProperties::set`. -/
def setProp {α : Type} (p : Id) (v : α) : List (Id × α) → List (Id × α)
  | [] => [(p, v)]
  | (q, w) :: ps => if q = p then (q, v) :: ps else (q, w) :: setProp p v ps

/-- `into_type_value`, expanded/node.rs:176-194. (Objects given by visitors have no index.) -/
def intoType : Obj → Option Id
  | .node n => if n.index.isNone && n.isEmpty then n.id else none
  | _ => none

/-- The objects of `rdf:type` that become types, expanded/node.rs:105-112, object.rs:143-150. -/
def typeObjs (os : List Obj) : List Id := os.filterMap intoType
/-- The other objects of `rdf:type`. -/
def nonTypeObjs (os : List Obj) : List Obj := os.filter fun o => (intoType o).isNone

/-- A property of a node, expanded/node.rs:102-121. -/
def nodePredicate (p : Id) (os : List Obj) (n : Node) : Node :=
  if p = rdfType then
    let n := (typeObjs os).foldl (fun n t => n.pushType t) n
    if (nonTypeObjs os).isEmpty then n else n.setProps (setProp p (nonTypeObjs os) n.props)
  else n.setProps (setProp p os n.props)

/-- `node.reverse_properties_mut_or_default().set(prop, nodes)`, expanded/node.rs:142-145. -/
def Node.setRev (p : Id) (ns : List Node) : Node → Node
  | .mk x i ty g inc ps rv => .mk x i ty g inc ps (some (setProp p ns (rv.getD [])))

/-- `node.included_mut_or_default().insert(node)`, expanded/node.rs:156-158. -/
def Node.insertIncluded : Node → Node → Node
  | .mk x i ty g inc ps rv, m => .mk x i ty g (some (setInsert Node.eq (inc.getD []) m)) ps rv

/-- `SerializeObject`, expanded/object.rs:73-83. -/
structure LObjState where
  types : List Id := []
  props : List (Id × List Obj) := []
  rev : List (Id × List Node) := []
  included : List Node := []
  graph : Option (List Obj) := none
  first : Option Obj := none
  rest : Option (List Obj) := none

/-- A property, expanded/object.rs:135-157. -/
def LObjState.predicate (p : Id) (os : List Obj) (s : LObjState) : LObjState :=
  if p = rdfType then
    let s := { s with types := s.types ++ typeObjs os }
    if (nonTypeObjs os).isEmpty then s else { s with props := setProp p (nonTypeObjs os) s.props }
  else { s with props := setProp p os s.props }

/-- `Vec::is_empty` and such: nothing or the collection. -/
def unlessEmpty {α : Type} (l : List α) : Option (List α) := if l.isEmpty then none else some l

/-- `SerializeObject::end`, expanded/object.rs:201-252. -/
def LObjState.finish (s : LObjState) : Obj :=
  match s.first, s.rest with
  | some f, some r =>
    if s.types.isEmpty && s.props.isEmpty && s.graph.isNone then .list none (r ++ [f]).reverse
    else .node (.mk none none (unlessEmpty s.types) s.graph (unlessEmpty s.included)
      (insertAll rdfRest [.list none r] (insertAll rdfFirst [f] s.props)) (unlessEmpty s.rev))
  | some f, none => .node (.mk none none (unlessEmpty s.types) s.graph (unlessEmpty s.included)
      (insertAll rdfFirst [f] s.props) (unlessEmpty s.rev))
  | none, some r => .node (.mk none none (unlessEmpty s.types) s.graph (unlessEmpty s.included)
      (insertAll rdfRest [.list none r] s.props) (unlessEmpty s.rev))
  | none, none => .node (.mk none none (unlessEmpty s.types) s.graph (unlessEmpty s.included)
      s.props (unlessEmpty s.rev))

/-- An empty node, with or without identifier, expanded/node.rs:63-66. -/
def startNode (i : Option Id) : Node := .mk none i none none none [] none

/-- `SerializeList`, expanded/list.rs:17-22. -/
structure LListState where
  first : Option Obj := none
  rest : List Obj := []

/-- `SerializeList::end`, expanded/list.rs:100-105: the items in reverse order. -/
def LListState.finish (s : LListState) : List Obj :=
  s.rest ++ [s.first.getD (.value none (.literal .null none))]

mutual
/-- `serialize_object_with`, expanded/object.rs:32-70. -/
def serObject (E : LdEnv) : LD → Except LdErr Obj
  | .mk (some (.lit l)) _ => .ok (.value none (literalToValue E l))
  | .mk (some (.id i)) vs => (nodeVisits E vs (startNode (some i))).map .node
  | .mk none vs => (objVisits E vs {}).map LObjState.finish
/-- `serialize_node_with`, expanded/node.rs:22-49. -/
def serNode (E : LdEnv) : LD → Except LdErr Node
  | .mk (some (.lit _)) _ => .error .invalidNode
  | .mk (some (.id i)) vs => nodeVisits E vs (startNode (some i))
  | .mk none vs => nodeVisits E vs (startNode none)
/-- `SubjectVisitor for SerializeNode`, expanded/node.rs:75-173: one call. -/
def nodeVisit (E : LdEnv) : LVisit → Node → Except LdErr Node
  | .predicate p os, n => match p with
    | some (.id i) => (serObjects E os).map fun os => nodePredicate i os n
    | _ => .error .invalidPredicate
  | .reverse p os, n => match p with
    | some (.id i) => (serNodes E os).map fun ns => n.setRev i ns
    | _ => .error .invalidPredicate
  | .graph ss, n => (serObjects E ss).map fun os => n.setGraphEntry (some (setCollect Obj.eq os))
  | .included v, n => (serNode E v).map fun m => n.insertIncluded m
/-- All calls. -/
def nodeVisits (E : LdEnv) : List LVisit → Node → Except LdErr Node
  | [], n => .ok n
  | v :: vs, n => match nodeVisit E v n with
    | .error e => .error e
    | .ok n => nodeVisits E vs n
/-- `SubjectVisitor for SerializeObject`, expanded/object.rs:102-199: one call. -/
def objVisit (E : LdEnv) : LVisit → LObjState → Except LdErr LObjState
  | .predicate p os, s => match p with
    | some (.id i) =>
      match (if i = rdfFirst then (serFirst E os none).map fun f => { s with first := f }
        else if i = rdfRest then (serRest E os []).map fun r => { s with rest := some r }
        else .ok s) with
      | .error e => .error e
      | .ok s => (serObjects E os).map fun os => s.predicate i os
    | _ => .error .invalidPredicate
  | .reverse p os, s => match p with
    | some (.id i) => (serNodes E os).map fun ns => { s with rev := setProp i ns s.rev }
    | _ => .error .invalidPredicate
  | .graph ss, s => (serObjects E ss).map fun os => { s with graph := some (setCollect Obj.eq os) }
  | .included v, s => (serNode E v).map fun m => { s with included := setInsert Node.eq s.included m }
/-- All calls. -/
def objVisits (E : LdEnv) : List LVisit → LObjState → Except LdErr LObjState
  | [], s => .ok s
  | v :: vs, s => match objVisit E v s with
    | .error e => .error e
    | .ok s => objVisits E vs s
/-- `SubjectVisitor for SerializeList`, expanded/list.rs:36-106: one call. -/
def listVisit (E : LdEnv) : LVisit → LListState → Except LdErr LListState
  | .predicate p os, s => match p with
    | some (.id i) =>
      if i = rdfFirst then (serFirst E os none).map fun f => { s with first := f }
      else if i = rdfRest then (serRest E os []).map fun r => { s with rest := r }
      else .ok s
    | _ => .error .invalidPredicate
  | .reverse _ _, _ => .error .listReverseProperty
  | .graph _, s => .ok s
  | .included _, _ => .error .listInclude
/-- All calls. -/
def listVisits (E : LdEnv) : List LVisit → LListState → Except LdErr LListState
  | [], s => .ok s
  | v :: vs, s => match listVisit E v s with
    | .error e => .error e
    | .ok s => listVisits E vs s
/-- `SerializeListFirst`, expanded/list.rs:108-150: the last object. -/
def serFirst (E : LdEnv) : List LD → Option Obj → Except LdErr (Option Obj)
  | [], f => .ok f
  | v :: vs, _ => match serObject E v with
    | .error e => .error e
    | .ok o => serFirst E vs (some o)
/-- `SerializeListRest`, expanded/list.rs:152-199: the last object. -/
def serRest (E : LdEnv) : List LD → List Obj → Except LdErr (List Obj)
  | [], r => .ok r
  | .mk _ vs :: ls, _ => match listVisits E vs {} with
    | .error e => .error e
    | .ok s => serRest E ls s.finish
/-- `SerializeProperty`, expanded/property.rs:19-60; `SerializeGraph`, expanded/graph.rs:16-58
(before the objects are collected in a set). -/
def serObjects (E : LdEnv) : List LD → Except LdErr (List Obj)
  | [] => .ok []
  | v :: vs => match serObject E v with
    | .error e => .error e
    | .ok o => (serObjects E vs).map fun os => o :: os
/-- `SerializeReverseProperty`, expanded/property.rs:62-101. -/
def serNodes (E : LdEnv) : List LD → Except LdErr (List Node)
  | [] => .ok []
  | v :: vs => match serNode E v with
    | .error e => .error e
    | .ok n => (serNodes E vs).map fun ns => n :: ns
end

/-- `SerializeDefaultGraph::subject`, expanded/default_graph.rs:45-70. -/
def serSubject (E : LdEnv) : LD → Except LdErr Obj
  | .mk (some (.lit l)) _ => .ok (.value none (literalToValue E l))
  | .mk (some (.id i)) vs => (nodeVisits E vs (startNode (some i))).map .node
  | .mk none vs => (nodeVisits E vs (startNode none)).map .node

/-- The subjects of the default graph. -/
def serDefault (E : LdEnv) (d : Doc) : List LD → Except LdErr Doc
  | [] => .ok d
  | v :: vs => match serSubject E v with
    | .error e => .error e
    | .ok o => serDefault E (setInsert Obj.eq d o) vs

/-- `Visitor for SerializeExpandedDocument`, expanded/mod.rs:43-93: one call. -/
def serGraph (E : LdEnv) (d : Doc) : LGraph → Except LdErr Doc
  | .default ss => serDefault E d ss
  | .named t ss => match t with
    | some (.lit _) => .error .invalidGraph
    | some (.id i) => (serObjects E ss).map fun os =>
        setInsert Obj.eq d (.node ((startNode (some i)).setGraphEntry (some (setCollect Obj.eq os))))
    | none => (serObjects E ss).map fun os =>
        setInsert Obj.eq d (.node ((startNode none).setGraphEntry (some (setCollect Obj.eq os))))

/-- `serialize`, crates/serialization/src/lib.rs:44-68. -/
def ldSerialize (E : LdEnv) (gs : List LGraph) : Except LdErr Doc := gs.foldlM (serGraph E) []

end JsonLd
