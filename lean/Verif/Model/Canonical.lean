import Verif.Model.Relabel
/-!
# Canonical literals

`canonicalize_with` of literals, values, objects, nodes and documents, and the loop of
`relabel_and_canonicalize_with`. The canonical form of a number (`NumberBuf::canonical_with`, through
`ryu_js`) and of a JSON value (`json_syntax::Value::canonicalize_with`) belong to external crates:
they are parameters.
-/

namespace JsonLd

/-- External functions: the canonical form of a number and of a JSON value. -/
structure CanonEnv where
  num : Str → Str
  json : Json → Json

/-- `Literal::canonicalize_with`, object/value.rs:106-110. -/
def Literal.canon (c : CanonEnv) : Literal → Literal
  | .num n => .num (c.num n)
  | l => l

/-- `Value::canonicalize_with`, object/value.rs:312-318. -/
def Value.canon (c : CanonEnv) : Value → Value
  | .json j => .json (c.json j)
  | .literal l t => .literal (l.canon c) t
  | .langString s => .langString s

section
variable (c : CanonEnv)

mutual
/-- `Object::canonicalize_with`, object/mod.rs:170-176; `List::canonicalize_with`,
object/list.rs:77-81. -/
def Obj.canon : Obj → Obj
  | .value i v => .value i (v.canon c)
  | .list i l => .list i (objsCanon l)
  | .node n => .node n.canon
/-- `Node::canonicalize_with`, object/node/mod.rs:194-208: properties and reverse properties only. -/
def Node.canon : Node → Node
  | .mk i id ty g inc ps rv => .mk i id ty g inc (psCanon ps) (rvCanon rv)
/-- `if let Some(reverse_properties) = …`, object/node/mod.rs:201-207. -/
def rvCanon : Option (List (Id × List Node)) → Option (List (Id × List Node))
  | none => none
  | some l => some (rpsCanon l)
/-- In-place loop over objects. -/
def objsCanon : List Obj → List Obj
  | [] => []
  | o :: os => o.canon :: objsCanon os
/-- In-place loop over nodes. -/
def nodesCanon : List Node → List Node
  | [] => []
  | n :: ns => n.canon :: nodesCanon ns
/-- Loop over the properties, object/node/mod.rs:195-199. -/
def psCanon : List (Id × List Obj) → List (Id × List Obj)
  | [] => []
  | (k, l) :: ps => (k, objsCanon l) :: psCanon ps
/-- Loop over the reverse properties, object/node/mod.rs:202-206. -/
def rpsCanon : List (Id × List Node) → List (Id × List Node)
  | [] => []
  | (k, l) :: ps => (k, nodesCanon l) :: rpsCanon ps
end

/-- `ExpandedDocument::canonicalize_with`, document/expanded.rs:163-173. -/
def Doc.canon (d : Doc) : Doc := setCollect Obj.eq (objsCanon c d)

/-- The loop of `relabel_and_canonicalize_with`, document/expanded.rs:110-114, without the insertion. -/
def relabelCanonObjs (gen : Nat → Id) : List Obj → Relabeling → List Obj × Relabeling
  | [], s => ([], s)
  | o :: os, s =>
    let r := o.walk (relabelHeader gen) s
    let rs := relabelCanonObjs gen os r.2
    (r.1.canon c :: rs.1, rs.2)

/-- `ExpandedDocument::relabel_and_canonicalize_with`, document/expanded.rs:99-115. -/
def Doc.relabelCanon (gen : Nat → Id) (d : Doc) (n : Nat) : Doc × Relabeling :=
  let r := relabelCanonObjs c gen d ⟨n, []⟩
  (setCollect Obj.eq r.1, r.2)

end
end JsonLd

namespace JsonLd

/-- `ToRdf::new`, src/processor/mod.rs:1803-1823 (the document and what the generator will yield from
then on); `gen` is what it yields from the start. -/
def Doc.toRdf (c : CanonEnv) (gen : Nat → Id) (d : Doc) : Doc × (Nat → Id) :=
  let r := d.relabelCanon c gen 0
  (r.1, fun k => gen (r.2.count + k))

end JsonLd
