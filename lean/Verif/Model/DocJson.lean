import Verif.Model.DocEq
import Verif.Model.Keyword
/-!
# Writing expanded documents as JSON, and reading them back

(`crates/core/src/id.rs`, `indexed.rs`, `lang_string.rs`, `object/**`, `document/expanded.rs`)

The vocabulary maps texts to identifiers and back; here identifiers are texts, so it disappears.
`validIri` and `validBlank` stand for `Iri::new(s).is_ok()` and `BlankId::new(s).is_ok()` of external
crates. Reading recurses over JSON values taken out of objects; it is written with a bound on the
nesting (`fuel`), and `C11_read_total` shows that the bound given by `Doc.read` is never reached.
-/

namespace JsonLd

/-! ## JSON objects (external crate `json_syntax`) -/

/-- `Object::insert`: all entries with the key are replaced by one, in the place of the first; without
any the entry is put at the end. -/
def jInsert (k : Str) (v : Json) : List (Str × Json) → List (Str × Json)
  | [] => [(k, v)]
  | (k', w) :: m => if k' = k then (k, v) :: m.filter (fun e => decide (e.1 ≠ k)) else (k', w) :: jInsert k v m

/-- A sequence of calls of `Object::insert` on an empty object. -/
def jObject (es : List (Str × Json)) : List (Str × Json) := es.foldl (fun m e => jInsert e.1 e.2 m) []

/-- `enum InvalidExpandedJson`, object/mod.rs:884-902 (the kinds in `Unexpected` are left out), a panic
and the bound on the nesting. -/
inductive JErr where
  | invalidObject | invalidList | invalidIndex | invalidId | invalidValueType | invalidLiteral
  | invalidLanguage | invalidDirection | notExpanded | unexpectedEntry | duplicateKey (k : Str)
  | unexpected | panic | fuel
  deriving DecidableEq, Repr

/-- `Object::remove_unique(k)`: takes out the entry with this key; an error if there are several. -/
def removeUnique (k : Str) (m : List (Str × Json)) : Except JErr (Option Json × List (Str × Json)) :=
  match m.filter (fun e => decide (e.1 = k)) with
  | [] => .ok (none, m)
  | [e] => .ok (some e.2, m.filter (fun e => decide (e.1 ≠ k)))
  | _ => .error (.duplicateKey k)

/-! ## Writing -/

/-- `Literal::into_json`, object/value.rs:93-100. -/
def Literal.toJson : Literal → Json
  | .null => .null
  | .bool b => .bool b
  | .num n => .num n
  | .str s => .str s

/-- `Id::into_json_with`, id.rs:338-342. -/
def Id.toJson (i : Id) : Json := .str i.str

/-- `Value::into_json_with`, object/value.rs:603-636: the calls of `insert`. -/
def Value.entries : Value → List (Str × Json)
  | .literal l ty => (ty.map fun t => ("@type".toList, Json.str t)).toList ++ [("@value".toList, l.toJson)]
  | .langString s =>
    (s.language.map fun l => ("@language".toList, Json.str l)).toList ++
    (s.direction.map fun d => ("@direction".toList, Json.str d.asStr)).toList ++
    [("@value".toList, .str s.data)]
  | .json j => [("@type".toList, .str "@json".toList), ("@value".toList, j)]

/-- `Indexed::into_json_with`, indexed.rs:166-178: a last call of `insert`. -/
def indexEntry (i : Option Str) : List (Str × Json) :=
  (i.map fun s => ("@index".toList, Json.str s)).toList

/-- The types, object/node/mod.rs:1303-1314: nothing for an empty list of types. -/
def typesEntry : Option (List Id) → List (Str × Json)
  | some (t :: ts) => [("@type".toList, .arr ((t :: ts).map Id.toJson))]
  | _ => []

mutual
/-- `Indexed<Object>::into_json_with`, indexed.rs:166-178, object/mod.rs:1157-1165,
object/list.rs:209-217. -/
def Obj.toJson : Obj → Json
  | .value i v => .obj (jObject (v.entries ++ indexEntry i))
  | .list i l => .obj (jObject ([("@list".toList, .arr (objsToJson l))] ++ indexEntry i))
  | .node n => n.toJson
/-- `Indexed<Node>::into_json_with`, indexed.rs:166-178 and object/node/mod.rs:1295-1343. The entry for included nodes is called `@include`
(1322). -/
def Node.toJson : Node → Json
  | .mk i id ty g inc ps rv => .obj (jObject (
      (id.map fun x => ("@id".toList, Id.toJson x)).toList ++
      typesEntry ty ++
      gToJson g ++ incToJson inc ++ rvToJson rv ++ psToJson ps ++ indexEntry i))
/-- `@graph`, object/node/mod.rs:1316-1318. -/
def gToJson : Option (List Obj) → List (Str × Json)
  | none => []
  | some l => [("@graph".toList, .arr (objsToJson l))]
/-- `@include`, object/node/mod.rs:1320-1325. -/
def incToJson : Option (List Node) → List (Str × Json)
  | none => []
  | some l => [("@include".toList, .arr (nodesToJson l))]
/-- `@reverse`, object/node/mod.rs:1327-1332 and node/reverse_properties.rs:337-350. -/
def rvToJson : Option (List (Id × List Node)) → List (Str × Json)
  | none => []
  | some l => [("@reverse".toList, .obj (jObject (rpsToJson l)))]
/-- `Vec::into_json_with` and `IndexSet::into_json_with`, syntax/src/into_json.rs:8-26. -/
def objsToJson : List Obj → List Json
  | [] => []
  | o :: os => o.toJson :: objsToJson os
/-- See `objsToJson`. -/
def nodesToJson : List Node → List Json
  | [] => []
  | o :: os => o.toJson :: nodesToJson os
/-- The properties, object/node/mod.rs:1334-1339 and node/multiset.rs:206-214. -/
def psToJson : List (Id × List Obj) → List (Str × Json)
  | [] => []
  | (k, l) :: ps => (k.str, .arr (objsToJson l)) :: psToJson ps
/-- The reverse properties, node/reverse_properties.rs:341-346. -/
def rpsToJson : List (Id × List Node) → List (Str × Json)
  | [] => []
  | (k, l) :: ps => (k.str, .arr (nodesToJson l)) :: rpsToJson ps
end

/-- `ExpandedDocument::into_json_with`: that of its set of objects, syntax/src/into_json.rs:18-26. -/
def Doc.toJson (d : Doc) : Json := .arr (objsToJson d)

/-! ## Reading -/

section
variable (validIri validBlank : Str → Bool)

/-- `Id::from_string_in`, id.rs:138-150. -/
def Id.ofStr (s : Str) : Id :=
  if validIri s then .iri s else if validBlank s then .blank s else .invalid s

/-- `Id::try_from_json_in`, id.rs:100-118. -/
def Id.read : Json → Except JErr Id
  | .str s => .ok (Id.ofStr validIri validBlank s)
  | _ => .error .invalidId

/-- `Literal::try_from`, object/value.rs:336-348. -/
def Literal.read : Json → Except JErr Literal
  | .null => .ok .null
  | .bool b => .ok (.bool b)
  | .num n => .ok (.num n)
  | .str s => .ok (.str s)
  | _ => .error .invalidLiteral

/-- An optional entry. -/
def readOpt {α : Type} (f : Json → Except JErr α) : Option Json → Except JErr (Option α)
  | none => .ok none
  | some j => do
    let a ← f j
    .ok (some a)

/-- A string, lang_string.rs:146-154 and 156-168. -/
def readString : Json → Except JErr Str
  | .str s => .ok s
  | _ => .error .unexpected

/-- A direction, lang_string.rs:170-182. -/
def readDirection : Json → Except JErr Direction
  | .str s => match Direction.tryFrom s with
    | some d => .ok d
    | none => .error .invalidDirection
  | _ => .error .unexpected

/-- `LangString::try_from_json`, lang_string.rs:140-188. Any text is accepted as a language. The
`unwrap` of line 185 is the panic. -/
def LangString.read (rest : List (Str × Json)) (value : Json) (language direction : Option Json) :
    Except JErr LangString := do
  let data ← readString value
  let language ← readOpt readString language
  let direction ← readOpt readDirection direction
  match rest with
  | [] => match LangString.new data language direction with
    | .ok s => .ok s
    | .error _ => .error .panic
  | _ :: _ => .error .unexpectedEntry

/-- `Value::try_from_json_object_in`, object/value.rs:260-306. -/
def Value.read (m : List (Str × Json)) (value : Json) : Except JErr Value := do
  let (ty, m) ← removeUnique "@type".toList m
  match ty with
  | some (.str ty) =>
    if ty = "@json".toList then .ok (.json value)
    else if validIri ty then do
      let lit ← Literal.read value
      .ok (.literal lit (some ty))
    else .error .invalidValueType
  | some _ => .error .invalidValueType
  | none => do
    let (language, m) ← removeUnique "@language".toList m
    let (direction, m) ← removeUnique "@direction".toList m
    if language.isSome || direction.isSome then do
      let s ← LangString.read m value language direction
      .ok (.langString s)
    else do
      let lit ← Literal.read value
      .ok (.literal lit none)

/-- `Vec::try_from_json_in`, object/mod.rs:796-814. -/
def readVec {α : Type} (f : Json → Except JErr α) : Json → Except JErr (List α)
  | .arr l => l.mapM f
  | _ => .error .invalidList

/-- `IndexSet::try_from_json_in`, object/mod.rs:816-834. -/
def readSet {α : Type} (eq : α → α → Bool) (f : Json → Except JErr α) : Json → Except JErr (List α)
  | .arr l => do
    let r ← l.mapM f
    .ok (setCollect eq r)
  | _ => .error .invalidList

/-- `Properties::insert_all`, node/properties.rs:123-133, and the same for reverse properties. -/
def insertAll {α : Type} (k : Id) (vs : List α) : List (Id × List α) → List (Id × List α)
  | [] => [(k, vs)]
  | (k', ws) :: ps => if k' = k then (k', ws ++ vs) :: ps else (k', ws) :: insertAll k vs ps

/-- `Properties::try_from_json_object_in`, node/properties.rs:213-228;
`ReverseProperties::try_from_json_object_in`, node/reverse_properties.rs:218-233. -/
def readProps {α : Type} (f : Json → Except JErr α) (m : List (Str × Json)) :
    Except JErr (List (Id × List α)) :=
  m.foldlM (init := []) fun ps e => do
    let l ← readVec f e.2
    .ok (insertAll (Id.ofStr validIri validBlank e.1) l ps)

/-- `ReverseProperties::try_from_json_in`, node/reverse_properties.rs:206-216. -/
def readRev (f : Json → Except JErr Node) : Json → Except JErr (List (Id × List Node))
  | .obj m => readProps validIri validBlank f m
  | _ => .error .invalidObject

/-- `Indexed::try_from_json_object_in`, indexed.rs:108-127: the index. -/
def readIndex (m : List (Str × Json)) : Except JErr (Option Str × List (Str × Json)) := do
  let (i, m) ← removeUnique "@index".toList m
  match i with
  | some (.str s) => .ok (some s, m)
  | some _ => .error .invalidIndex
  | none => .ok (none, m)

/-- `Node::try_from_json_object_in`, object/node/mod.rs:1234-1293. `ro` and `rn` read objects and
nodes. -/
def readNodeBody (ro : Json → Except JErr Obj) (rn : Json → Except JErr Node) (index : Option Str)
    (m : List (Str × Json)) : Except JErr Node := do
  let (id, m) ← removeUnique "@id".toList m
  let id ← readOpt (Id.read validIri validBlank) id
  let (ty, m) ← removeUnique "@type".toList m
  let ty ← readOpt (readVec (Id.read validIri validBlank)) ty
  let (g, m) ← removeUnique "@graph".toList m
  let g ← readOpt (readSet Obj.eq ro) g
  let (inc, m) ← removeUnique "@included".toList m
  let inc ← readOpt (readSet Node.eq rn) inc
  let (rv, m) ← removeUnique "@reverse".toList m
  let rv ← readOpt (readRev validIri validBlank rn) rv
  let ps ← readProps validIri validBlank ro m
  .ok (.mk index id ty g inc ps rv)

/-- `Object::try_from_json_object_in`, object/mod.rs:848-882, after the index has been read. -/
def readObjBody (ro : Json → Except JErr Obj) (rn : Json → Except JErr Node) (index : Option Str)
    (m : List (Str × Json)) : Except JErr Obj := do
  let (ctx, m) ← removeUnique "@context".toList m
  match ctx with
  | some _ => .error .notExpanded
  | none => do
    let (value, m) ← removeUnique "@value".toList m
    match value with
    | some value => do
      let v ← Value.read validIri m value
      .ok (.value index v)
    | none => do
      let (list, m) ← removeUnique "@list".toList m
      match list with
      | some list => do
        let l ← readVec ro list
        match m with
        | [] => .ok (.list index l)
        | _ :: _ => .error .unexpectedEntry
      | none => do
        let n ← readNodeBody validIri validBlank ro rn index m
        .ok (.node n)

/-- `Indexed<O>::try_from_json_in`, indexed.rs:96-127. -/
def readIndexed {α : Type} (body : Option Str → List (Str × Json) → Except JErr α) :
    Json → Except JErr α
  | .obj m => do
    let (i, m) ← readIndex m
    body i m
  | _ => .error .invalidObject

mutual
/-- `Indexed<Object>::try_from_json_in`. -/
def readObj : Nat → Json → Except JErr Obj
  | 0, _ => .error .fuel
  | f + 1, j => readIndexed (readObjBody validIri validBlank (readObj f) (readNode f)) j
/-- `Indexed<Node>::try_from_json_in`. -/
def readNode : Nat → Json → Except JErr Node
  | 0, _ => .error .fuel
  | f + 1, j => readIndexed (readNodeBody validIri validBlank (readObj f) (readNode f)) j
end

mutual
/-- How deep a JSON value is nested: more than this bound is never needed. -/
def Json.depth : Json → Nat
  | .arr l => jsonsDepth l + 1
  | .obj m => entriesDepth m + 1
  | _ => 1
/-- See `Json.depth`. -/
def jsonsDepth : List Json → Nat
  | [] => 0
  | j :: l => max j.depth (jsonsDepth l)
/-- See `Json.depth`. -/
def entriesDepth : List (Str × Json) → Nat
  | [] => 0
  | (_, j) :: l => max j.depth (entriesDepth l)
end

/-- `ExpandedDocument::try_from_json_in`, document/expanded.rs:271-292. -/
def Doc.read : Json → Except JErr Doc
  | .arr l => do
    let r ← l.mapM (readObj validIri validBlank (jsonsDepth l))
    .ok (setCollect Obj.eq r)
  | _ => .error .unexpected
end

end JsonLd
