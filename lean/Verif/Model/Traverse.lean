import Verif.Model.Doc
/-!
# Traversal of documents (`crates/core/src/object/mod.rs`, `object/node/mod.rs`, `object/value.rs`)
-/

namespace JsonLd

/-- `node::EntryRef`, object/node/mod.rs:835-842. -/
inductive NEntry where
  | id (i : Id)
  | type (ts : List Id)
  | graph (g : List Obj)
  | included (l : List Node)
  | reverse (r : List (Id × List Node))
  | property (k : Id) (os : List Obj)

/-- `value::EntryRef`, object/value.rs:361-368: `@value` (a literal, a language string or a JSON
literal), `@type` (`none` is `@json`), `@language`, `@direction`. -/
inductive VEntry where
  | value (v : Value)
  | type (t : Option Str)
  | language (l : Str)
  | direction (d : Direction)

/-- `FragmentRef`, object/mod.rs:980-1015, with the fragments of value, list and node objects
(object/value.rs:502-516, list.rs:197-206, node/mod.rs:1083-1095) inlined. `Object` and `Node`
(without index) do not occur in the traversal of a document and are left out, and so are the
fragments inside a JSON literal, which are those of the crate `json-syntax`. -/
inductive Frag where
  | indexEntry (s : Str)
  | indexKey
  | indexValue (s : Str)
  | object (o : Obj)
  | node (n : Node)
  | nodeList (l : List Node)
  | vEntry (e : VEntry)
  | vKey (e : VEntry)
  | vValue (e : VEntry)
  | listEntry (l : List Obj)
  | nEntry (e : NEntry)
  | nKey (e : NEntry)
  | nValue (e : NEntry)
  | typeFragment (t : Id)

/-- `Value::entries`, object/value.rs:237-258, in the order of `next_back` (480-492):
direction, language, type, value. -/
def Value.entriesBack : Value → List VEntry
  | .literal l none => [.value (.literal l none)]
  | .literal l (some t) => [.type (some t), .value (.literal l (some t))]
  | .langString s => (s.direction.map VEntry.direction).toList ++
      (s.language.map VEntry.language).toList ++ [.value (.langString s)]
  | .json j => [.type none, .value (.json j)]

/-- `Node::entries`, node/mod.rs:453-462, in the order of `next` (947-961). -/
def Node.entries : Node → List NEntry
  | .mk _ id ty g inc ps rv =>
    (id.map NEntry.id).toList ++ (ty.map NEntry.type).toList ++ (g.map NEntry.graph).toList ++
      (inc.map NEntry.included).toList ++ (rv.map NEntry.reverse).toList ++
      ps.map fun p => NEntry.property p.1 p.2

/-- `FragmentRef::sub_fragments`, object/mod.rs:1061-1075, with the iterators of 1084-1130,
node/mod.rs:822-831 and 1155-1185, value.rs:588-601. A list fragment has none (object/mod.rs:1073).
-/
def Frag.subs : Frag → List Frag
  | .indexEntry s => [.indexKey, .indexValue s]
  | .object (.value i v) => (i.map Frag.indexEntry).toList ++ v.entriesBack.map Frag.vEntry
  | .object (.list i l) => (i.map Frag.indexEntry).toList ++ [.listEntry l]
  | .object (.node n) => (n.index.map Frag.indexEntry).toList ++ n.entries.map Frag.nEntry
  | .node n => (n.index.map Frag.indexEntry).toList ++ n.entries.map Frag.nEntry
  | .nodeList l => l.map Frag.node
  | .vEntry e => [.vKey e, .vValue e]
  | .nEntry e => [.nKey e, .nValue e]
  | .nValue (.type ts) => ts.reverse.map Frag.typeFragment
  | .nValue (.graph g) => g.map Frag.object
  | .nValue (.included l) => l.map Frag.node
  | .nValue (.reverse r) => r.map fun p => Frag.nodeList p.2
  | .nValue (.property _ os) => os.map Frag.object
  | _ => []

/-- `Traverse::next` repeated until the stack is empty, object/mod.rs:1143-1155. The head of the
list is the top of the stack. `none` when the fuel is used up before. -/
def traverseLoop : Nat → List Frag → Option (List Frag)
  | _, [] => some []
  | 0, _ :: _ => none
  | fuel + 1, f :: rest => (traverseLoop fuel (f.subs.reverse ++ rest)).map (f :: ·)

/-- `ExpandedDocument::traverse`, document/expanded.rs:56-58: the stack initially holds the objects
in order, the last one on top. -/
def Doc.traverse (fuel : Nat) (d : Doc) : Option (List Frag) :=
  traverseLoop fuel (d.map Frag.object).reverse

/-- `FragmentRef::into_id`, object/mod.rs:1027-1033, value.rs:519-524, node/mod.rs:1098-1105. -/
def Frag.intoId : Frag → Option Id
  | .vValue (.type (some t)) => some (.iri t)
  | .nKey (.property k _) => some k
  | .nValue (.id i) => some i
  | .typeFragment t => some t
  | _ => none

/-- `ExpandedDocument::blank_ids`, document/expanded.rs:204-211 (the set as a list). -/
def Doc.blankIds (fuel : Nat) (d : Doc) : Option (List Str) :=
  (d.traverse fuel).map fun fs => fs.filterMap fun f => f.intoId.bind Id.asBlank

end JsonLd
