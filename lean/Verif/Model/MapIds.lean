import Verif.Model.PropMap
/-!
# `map_ids`: applying functions to all identifiers of a document

(`crates/core/src/document/expanded.rs:186-201`, `object/mod.rs:405-432`, `object/list.rs:87-120`,
`object/value.rs:327-333`, `object/node/mod.rs:463-527`)

The functions are pure (in Rust they are `FnMut`). Identifiers before and after have the same type.
-/

namespace JsonLd

/-- `Value::map_ids`, object/value.rs:327-333. -/
def Value.mapIds (g : Str → Str) : Value → Value
  | .literal l ty => .literal l (ty.map g)
  | .langString s => .langString s
  | .json j => .json j

section
variable (f : Id → Id) (g : Str → Str)

mutual
/-- `Object::map_ids_with` under `Indexed::map_inner`, object/mod.rs:418-432; lists: object/list.rs:102-119. -/
def Obj.mapIds : Obj → Obj
  | .value i v => .value i (v.mapIds g)
  | .list i l => .list i (objsMapIds l)
  | .node n => .node n.mapIds
/-- `Node::map_ids_with`, object/node/mod.rs:477-526. -/
def Node.mapIds : Node → Node
  | .mk i id ty gr inc ps rv =>
    .mk i (id.map f) (ty.map (List.map f)) (gMapIds gr) (incMapIds inc)
      (PropMap.fromIter (psMapIds ps)) (rvMapIds rv)
/-- `@graph`, object/node/mod.rs:491-495: collected into an `IndexSet`. -/
def gMapIds : Option (List Obj) → Option (List Obj)
  | none => none
  | some l => some (setCollect Obj.eq (objsMapIds l))
/-- `@included`, object/node/mod.rs:496-500: collected into an `IndexSet`. -/
def incMapIds : Option (List Node) → Option (List Node)
  | none => none
  | some l => some (setCollect Node.eq (nodesMapIds l))
/-- `@reverse`, object/node/mod.rs:513-524: collected into `ReverseProperties`. -/
def rvMapIds : Option (List (Id × List Node)) → Option (List (Id × List Node))
  | none => none
  | some l => some (PropMap.fromIter (rpsMapIds l))
/-- Several objects. -/
def objsMapIds : List Obj → List Obj
  | [] => []
  | o :: os => o.mapIds :: objsMapIds os
/-- Several nodes. -/
def nodesMapIds : List Node → List Node
  | [] => []
  | o :: os => o.mapIds :: nodesMapIds os
/-- The properties before they are collected, object/node/mod.rs:501-512. -/
def psMapIds : List (Id × List Obj) → List (Id × List Obj)
  | [] => []
  | (k, l) :: ps => (f k, objsMapIds l) :: psMapIds ps
/-- The reverse properties before they are collected. -/
def rpsMapIds : List (Id × List Node) → List (Id × List Node)
  | [] => []
  | (k, l) :: ps => (f k, nodesMapIds l) :: rpsMapIds ps
end

/-- `ExpandedDocument::map_ids`, document/expanded.rs:186-201: collected into an `IndexSet`. -/
def Doc.mapIds (d : Doc) : Doc := setCollect Obj.eq (objsMapIds f g d)
end

end JsonLd
